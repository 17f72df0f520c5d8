/-!
# Return codes (`data-structures/returnelement.hpp`)
-/

namespace Growt

/-- `enum class ReturnCode`, `data-structures/returnelement.hpp:21-50`. -/
inductive ReturnCode where
  | ERROR
  | SUCCESS_IN | SUCCESS_UP | SUCCESS_DEL
  | UNSUCCESS_NOT_FOUND | UNSUCCESS_ALREADY_USED | UNSUCCESS_FULL
  | UNSUCCESS_INVALID | UNSUCCESS_BACKOFF
  | TSX_SUCCESS_IN | TSX_SUCCESS_UP | TSX_SUCCESS_DEL
  | TSX_UNSUCCESS_NOT_FOUND | TSX_UNSUCCESS_ALREADY_USED | TSX_UNSUCCESS_FULL
  | TSX_UNSUCCESS_INVALID | TSX_ABORT
  deriving DecidableEq, Repr

/-- The integer value of each enumerator, `data-structures/returnelement.hpp:28-49`. -/
def ReturnCode.toNat : ReturnCode → Nat
  | .ERROR => 0
  | .SUCCESS_IN => 9
  | .SUCCESS_UP => 17
  | .SUCCESS_DEL => 33
  | .UNSUCCESS_NOT_FOUND => 2
  | .UNSUCCESS_ALREADY_USED => 4
  | .UNSUCCESS_FULL => 64
  | .UNSUCCESS_INVALID => 128
  | .UNSUCCESS_BACKOFF => 256
  | .TSX_SUCCESS_IN => 1033
  | .TSX_SUCCESS_UP => 1041
  | .TSX_SUCCESS_DEL => 1057
  | .TSX_UNSUCCESS_NOT_FOUND => 1026
  | .TSX_UNSUCCESS_ALREADY_USED => 1028
  | .TSX_UNSUCCESS_FULL => 1088
  | .TSX_UNSUCCESS_INVALID => 1152
  | .TSX_ABORT => 1024

/-- `successful(ec) = ec & 1`, `data-structures/returnelement.hpp:52`. -/
def ReturnCode.successful (c : ReturnCode) : Bool := c.toNat &&& 1 != 0

end Growt
