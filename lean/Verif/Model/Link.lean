/-!
# Pointer marking

Model of `/repo/src/link.rs`; an address is a 64-bit word (`usize` on the supported targets).  Provenance is not modelled.
-/
namespace Verif.Link

/-- `MARK_BIT`: link.rs:6. -/
def markBit : BitVec 64 := 1#64
/-- `mark_ptr`: link.rs:10-12. -/
def mark (p : BitVec 64) : BitVec 64 := p ||| markBit
/-- `unmark_ptr`: link.rs:16-18. -/
def unmark (p : BitVec 64) : BitVec 64 := p &&& ~~~ markBit
/-- `is_marked`: link.rs:22-24. -/
def isMarked (p : BitVec 64) : Bool := p &&& markBit != 0#64

end Verif.Link
