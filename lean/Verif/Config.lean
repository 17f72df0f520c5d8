/-!
# Modifiers and the table dispatcher
-/

namespace Growt

/-- `hmod`, `data-structures/hash_table_mods.hpp:5-15`. -/
inductive HMod where
  | neutral | growable | deletion | ref_integrity | sync | pool | circular_map | circular_prob
  deriving DecidableEq, Repr

/-- Values of the enumerators, `hash_table_mods.hpp:7-14`. -/
def HMod.value : HMod → Nat
  | .neutral => 0
  | .growable => 1
  | .deletion => 2
  | .ref_integrity => 4
  | .sync => 8
  | .pool => 16
  | .circular_map => 32
  | .circular_prob => 64

/-- `mod_aggregator::mod_descriptor`, `hash_table_mods.hpp:20-21` (left-associated fold of `|`). -/
def descriptor (mods : List HMod) : Nat := mods.foldl (fun a x => a ||| x.value) 0

/-- `mod_aggregator::is<Ask>()`, `hash_table_mods.hpp:24-28`. -/
def modIs (mods : List HMod) (ask : HMod) : Bool := descriptor mods &&& ask.value != 0

/-- `mod_aggregator::all<Asks...>()`, `hash_table_mods.hpp:30-35`: the aggregator of the question is
built from `Mods`, not from `Asks`. -/
def modAll (mods _asks : List HMod) : Bool :=
  let ask := descriptor mods
  (ask &&& descriptor mods) == ask

/-- The three slot kinds, `data-structures/table_config.hpp:22-27`. -/
inductive SlotKind where
  | complexSlot | simpleSlot | singleWordSlot
  deriving DecidableEq, Repr

/-- `slot_config<sizeof(value_type), sizeof(key_type), ref>`, `table_config.hpp:29-49`. -/
def slotConfig (valueSize keySize : Nat) (ref : Bool) : SlotKind :=
  if valueSize = 16 ∧ keySize = 8 ∧ ref = false then .simpleSlot
  else if valueSize = 8 ∧ keySize = 4 ∧ ref = false then .singleWordSlot
  else .complexSlot

/-- What `table_config` selects. (`table_config.hpp:51-114`) -/
structure TableChoice where
  slot : SlotKind
  markable : Bool
  cyclicMap : Bool
  cyclicProb : Bool
  /-- `NeedsCleanup`: may the destructor of a base table free the elements? -/
  baseCleanup : Bool
  /-- `migration_table` or plain `base_linear`? -/
  migration : Bool
  /-- worker strategy `wstrat_pool` or `wstrat_user` -/
  pool : Bool
  /-- exclusion strategy `estrat_sync` or `estrat_async` -/
  sync : Bool
  deriving DecidableEq, Repr

/-- `table_config`, `table_config.hpp:51-114`. -/
def tableConfig (mods : List HMod) (valueSize keySize : Nat) : TableChoice :=
  let needsMarking := modIs mods .growable && !modIs mods .sync
  let needsRef := modIs mods .ref_integrity && modIs mods .growable
  { slot := slotConfig valueSize keySize needsRef
    markable := needsMarking
    cyclicMap := modIs mods .circular_map
    cyclicProb := modIs mods .circular_prob
    baseCleanup := !modIs mods .growable
    migration := modIs mods .growable || modIs mods .deletion
    pool := modIs mods .pool
    sync := modIs mods .sync }

/-- `seq_table_config::needs_complex_slot`, `data-structures/seq_table_config.hpp:38-41`: `true`
selects `seq_complex_slot`. -/
def seqNeedsComplex (mods : List HMod) (valueSize keySize : Nat) : Bool :=
  !(valueSize == 16 && keySize == 8 && !(modIs mods .ref_integrity && modIs mods .growable))

end Growt
