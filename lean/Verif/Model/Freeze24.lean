/-!
# Freeze words

Model of `/repo/src/freeze24.rs` (`Freeze24Utils`) and of the freeze functions of
the 15-slot permuter (`/repo/src/permuter.rs:756-771`).
-/
namespace Verif.Freeze

/-- `FREEZE_SHIFT`: freeze24.rs:22. -/
def shift24 : Nat := 23 * 5 + 5

/-- `FREEZE_MASK`: freeze24.rs:25. -/
def mask24 : BitVec 128 := 0x1F#128 <<< shift24

/-- `SENTINEL`: freeze24.rs:28. -/
def sentinel24 : BitVec 128 := 0x1F#128 <<< shift24

/-- `is_frozen`: freeze24.rs:44-46. -/
def isFrozen (raw : BitVec 128) : Bool := (raw &&& mask24) == sentinel24

/-- `freeze_raw`: freeze24.rs:62-64. -/
def freezeRaw (raw : BitVec 128) : BitVec 128 := (raw &&& ~~~ mask24) ||| sentinel24

/-- `get_slot23`: freeze24.rs:76-78. -/
def getSlot23 (raw : BitVec 128) : BitVec 128 := (raw >>> shift24) &&& 0x1F#128

/-- `unfreeze_raw`: freeze24.rs:97-99. -/
def unfreezeRaw (frozen slot23 : BitVec 128) : BitVec 128 :=
  (frozen &&& ~~~ mask24) ||| (slot23 <<< shift24)

/-- `is_frozen_raw` of the 15-slot permuter: permuter.rs:756-762. -/
def isFrozenRaw64 (raw : BitVec 64) : Bool := ((raw >>> (14 * 4)) &&& 0xF#64) == 0xF#64

/-- `freeze_raw` of the 15-slot permuter: permuter.rs:765-771. -/
def freezeRaw64 (raw : BitVec 64) : BitVec 64 :=
  (raw &&& ~~~ (0xF#64 <<< (14 * 4))) ||| (0xF#64 <<< (14 * 4))

end Verif.Freeze
