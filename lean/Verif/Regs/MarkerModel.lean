import Verif.Regs.DefModel
/-!
# Model of the traits of register tokens: `src/reg/marker.rs`, with `src/reg/tag.rs`, `mod.rs`, `field.rs`, `atomic.rs`, `soft_atomic.rs`

The traits are predicates on a register token and a field token of that register, their implementations are Horn clauses: what
`reg!` implements for a declaration (`Verif.Regs.Def`) are the facts, and an `impl<R> Trait for R where …` is a rule. The tokens of
a type `Reg<T>` implement the traits for the tag `T` and no other.

Simplifications: `Token`, `Sync`, `Sized`, `Reg` and `Val: Bitfield` are implemented by every token and are omitted, as are
bounds `T: RegTag`. A single-bit and a multi-bit trait are declared one after another with the same text, they are one entry here.
-/
namespace Verif.Regs.Marker
open Verif.Regs.Def (RTrait FTrait Variant Field)

/-- `tag.rs` 35–59. -/
inductive Tag where
  | urt | srt | crt
deriving DecidableEq, Repr

/-- Fields of one bit, or of several. -/
inductive Width where
  | bit | bits
deriving DecidableEq, Repr

/-- Traits. Those of a register and those of a field have different names; `copy` is for both. -/
inductive Tr where
  /-- `RegAtomic` for a tag, `AtomicBits` for the integer of the register -/
  | regAtomic (t : Tag) | atomicBits
  /-- `Copy` for the register token, for the field token -/
  | copyReg | copyField
  -- mod.rs
  | rReg (t : Tag) | wReg (t : Tag) | roReg (t : Tag) | woReg (t : Tag)
  | wRegUnsync | wRegAtomic (t : Tag) | rwRegUnsync | rwRegAtomic (t : Tag)
  -- field.rs
  | field (t : Tag) | fieldW (t : Tag) (w : Width)
  | rr (t : Tag) | ww (t : Tag) | roR (t : Tag) | woW (t : Tag) | woWo (t : Tag)
  | rrW (t : Tag) (w : Width) | wwW (t : Tag) (w : Width) | woWoW (t : Tag) (w : Width)
  -- atomic.rs, soft_atomic.rs
  | wRw (t : Tag) | wRwW (t : Tag) (w : Width)
  -- marker.rs
  | rwReg (t : Tag)
  | uRwReg | uRoReg | uWoReg | sRwReg | sRoReg | sWoReg | cRwReg | cRoReg | cWoReg
  | rwRw (t : Tag) (w : Width) | woRw (t : Tag) (w : Width) | roRw (t : Tag) (w : Width) | roRo (t : Tag) (w : Width)
  | uRwRw (w : Width) | uWoRw (w : Width) | uWoWo (w : Width) | uRoRw (w : Width) | uRoRo (w : Width)
  | sRwRw (w : Width) | sWoRw (w : Width) | sWoWo (w : Width) | sRoRw (w : Width) | sRoRo (w : Width)
  | cRwRw (w : Width) | cWoRw (w : Width) | cWoWo (w : Width) | cRoRw (w : Width) | cRoRo (w : Width)
deriving DecidableEq, Repr

/-- The `where` clause and the supertraits of a trait. -/
def supers : Tr → List Tr
  | .regAtomic _ | .atomicBits | .copyReg | .copyField => []
  -- mod.rs 523, 559, 570, 573, 576, 616, 654
  | .rReg _ | .wReg _ => []
  | .roReg t => [.rReg t]
  | .woReg t => [.wReg t]
  | .wRegUnsync => [.wReg .urt]
  | .wRegAtomic t => [.regAtomic t, .wReg t]
  | .rwRegUnsync => [.rReg .urt, .wRegUnsync]
  -- atomic.rs 8, soft_atomic.rs 11
  | .rwRegAtomic t => [.regAtomic t, .rReg t, .wRegAtomic t]
  -- field.rs 18, 77, 80
  | .field _ => []
  | .fieldW t _ => [.field t]
  -- field.rs 84–130
  | .rr t => [.field t, .rReg t]
  | .ww t => [.field t, .wReg t]
  | .roR t => [.rr t, .rReg t]
  | .woW t => [.ww t, .wReg t]
  | .woWo t => [.woW t, .woReg t]
  -- field.rs 151–154 and 206–209, 166–169 and 223–226, 185–188 and 237–240
  | .rrW t w => [.fieldW t w, .rr t, .rReg t]
  | .wwW t w => [.fieldW t w, .ww t, .wReg t]
  | .woWoW t w => [.fieldW t w, .woW t, .woReg t]
  -- atomic.rs 33–36, 48–51, 71–74; soft_atomic.rs 35–38, 51–54, 75–78
  | .wRw t => [.regAtomic t, .ww t, .rReg t, .wReg t]
  | .wRwW t w => [.regAtomic t, .wRw t, .fieldW t w, .rReg t, .wReg t]
  -- marker.rs 29–32
  | .rwReg t => [.rReg t, .wReg t]
  -- marker.rs 45–48, 61–63, 71–74
  | .uRwReg => [.rwReg .urt, .rwRegUnsync]
  | .uRoReg => [.roReg .urt]
  | .uWoReg => [.woReg .urt, .wRegUnsync]
  -- marker.rs 87–90, 103–105, 113–116
  | .sRwReg => [.rwReg .srt, .wRegAtomic .srt]
  | .sRoReg => [.roReg .srt]
  | .sWoReg => [.woReg .srt, .wRegAtomic .srt]
  -- marker.rs 129–133, 147–150, 163–167
  | .cRwReg => [.rwReg .crt, .rwRegAtomic .crt, .copyReg]
  | .cRoReg => [.roReg .crt, .copyReg]
  | .cWoReg => [.woReg .crt, .wRegAtomic .crt, .copyReg]
  -- marker.rs 181–214, 217–250, 253–286, 289–322
  | .rwRw t w => [.wwW t w, .rrW t w, .rwReg t]
  | .woRw t w => [.wwW t w, .woW t, .rwReg t]
  | .roRw t w => [.rrW t w, .roR t, .rwReg t]
  | .roRo t w => [.rrW t w, .roR t, .roReg t]
  -- marker.rs 325–353, 357–385, 389–417, 421–449, 453–481
  | .uRwRw w => [.rwRw .urt w, .uRwReg]
  | .uWoRw w => [.woRw .urt w, .uRwReg]
  | .uWoWo w => [.woWoW .urt w, .uWoReg]
  | .uRoRw w => [.roRw .urt w, .uRwReg]
  | .uRoRo w => [.roRo .urt w, .uRoReg]
  -- marker.rs 485–517, 521–553, 557–585, 589–617, 621–649
  | .sRwRw w => [.rwRw .srt w, .wRwW .srt w, .sRwReg]
  | .sWoRw w => [.woRw .srt w, .wRwW .srt w, .sRwReg]
  | .sWoWo w => [.woWoW .srt w, .sWoReg]
  | .sRoRw w => [.roRw .srt w, .sRwReg]
  | .sRoRo w => [.roRo .srt w, .sRoReg]
  -- marker.rs 653–689, 693–729, 733–765, 769–801, 805–837
  | .cRwRw w => [.rwRw .crt w, .wRwW .crt w, .copyField, .cRwReg]
  | .cWoRw w => [.woRw .crt w, .wRwW .crt w, .copyField, .cRwReg]
  | .cWoWo w => [.woWoW .crt w, .copyField, .cWoReg]
  | .cRoRw w => [.roRw .crt w, .copyField, .cRwReg]
  | .cRoRo w => [.roRo .crt w, .copyField, .cRoReg]

/-- The `where` clause of the implementation for all types, if there is one. `atomics`: the feature; without it the traits of
`soft_atomic.rs` have the place of those of `atomic.rs` (marker.rs 7–19). -/
def rule (atomics : Bool) : Tr → Option (List Tr)
  -- facts
  | .regAtomic _ | .atomicBits | .copyReg | .copyField | .rReg _ | .wReg _ | .roReg _ | .woReg _ | .field _ | .fieldW _ _
  | .rr _ | .ww _ | .roR _ | .woW _ => none
  -- mod.rs 682–684, 724–730, 765–767
  | .wRegUnsync => some [.wReg .urt]
  | .wRegAtomic t => some [.regAtomic t, .wReg t]
  | .rwRegUnsync => some [.rReg .urt, .wRegUnsync]
  -- atomic.rs 88–93, 127–133, 149–154, 184–189; soft_atomic.rs 86–90, 114–119, 138–143, 173–178
  | .rwRegAtomic t => some ([.regAtomic t, .rReg t, .wRegAtomic t] ++ if atomics then [.atomicBits] else [])
  | .wRw t => some ([.regAtomic t, .ww t, .rReg t, .wReg t] ++ if atomics then [.atomicBits] else [])
  | .wRwW t w => some [.regAtomic t, .wRw t, .fieldW t w, .rReg t, .wReg t]
  -- field.rs 247–251, 279–283 and 373–377, 298–302 and 398–402, 338–342 and 420–424
  | .woWo t => some [.woW t, .woReg t]
  | .rrW t w => some [.fieldW t w, .rr t, .rReg t]
  | .wwW t w => some [.fieldW t w, .ww t, .wReg t]
  | .woWoW t w => some [.fieldW t w, .woW t, .woReg t]
  -- marker.rs 36–39, 52–55, 67, 78–81, 94–97, 109, 120–123, 137–141, 154–157, 171–175
  | .rwReg t => some [.rReg t, .wReg t]
  | .uRwReg => some [.rwReg .urt, .rwRegUnsync]
  | .uRoReg => some [.roReg .urt]
  | .uWoReg => some [.woReg .urt, .wRegUnsync]
  | .sRwReg => some [.rwReg .srt, .wRegAtomic .srt]
  | .sRoReg => some [.roReg .srt]
  | .sWoReg => some [.woReg .srt, .wRegAtomic .srt]
  | .cRwReg => some [.rwReg .crt, .rwRegAtomic .crt, .copyReg]
  | .cRoReg => some [.roReg .crt, .copyReg]
  | .cWoReg => some [.woReg .crt, .wRegAtomic .crt, .copyReg]
  -- marker.rs: in the ranges cited at `supers`
  | .rwRw t w => some [.wwW t w, .rrW t w, .rwReg t]
  | .woRw t w => some [.wwW t w, .woW t, .rwReg t]
  | .roRw t w => some [.rrW t w, .roR t, .rwReg t]
  | .roRo t w => some [.rrW t w, .roR t, .roReg t]
  | .uRwRw w => some [.rwRw .urt w, .uRwReg]
  | .uWoRw w => some [.woRw .urt w, .uRwReg]
  | .uWoWo w => some [.woWoW .urt w, .uWoReg]
  | .uRoRw w => some [.roRw .urt w, .uRwReg]
  | .uRoRo w => some [.roRo .urt w, .uRoReg]
  | .sRwRw w => some [.rwRw .srt w, .wRwW .srt w, .sRwReg]
  | .sWoRw w => some [.woRw .srt w, .wRwW .srt w, .sRwReg]
  | .sWoWo w => some [.woWoW .srt w, .sWoReg]
  | .sRoRw w => some [.roRw .srt w, .sRwReg]
  | .sRoRo w => some [.roRo .srt w, .sRoReg]
  | .cRwRw w => some [.rwRw .crt w, .wRwW .crt w, .copyField, .cRwReg]
  | .cWoRw w => some [.woRw .crt w, .wRwW .crt w, .copyField, .cRwReg]
  | .cWoWo w => some [.woWoW .crt w, .copyField, .cWoReg]
  | .cRoRw w => some [.roRw .crt w, .copyField, .cRwReg]
  | .cRoRo w => some [.roRo .crt w, .copyField, .cRoReg]

/-- What is implemented whatever the tokens are: `tag.rs` 52, 59. -/
def global : Tr → Bool
  | .regAtomic t => t = .srt || t = .crt
  | _ => false

/-- What is implemented for the token `Reg<T>` with tag `t` of the register `v` and the token of its field `f` (macros/src/reg.rs
199–238, 356–360, 381–400; the tokens derive `Copy`, which needs `T: Copy`, tag.rs 55; atomic.rs 250–252). -/
def declared {C : Type} (v : Variant C) (f : Field C) (t : Tag) : Tr → Bool
  | .rReg t' => t = t' && v.traits.contains .rReg
  | .wReg t' => t = t' && v.traits.contains .wReg
  | .roReg t' => t = t' && v.traits.contains .roReg
  | .woReg t' => t = t' && v.traits.contains .woReg
  | .field t' => t = t'
  | .fieldW t' w => t = t' && (w = .bit) == f.isBit
  | .rr t' => t = t' && f.impls.contains .rr
  | .ww t' => t = t' && f.impls.contains .ww
  | .roR t' => t = t' && f.impls.contains .roR
  | .woW t' => t = t' && f.impls.contains .woW
  | .copyReg | .copyField => t = .crt
  | .atomicBits => v.size = 8 || v.size = 16 || v.size = 32
  | _ => false

/-- The trait solver: what follows from facts by the rules. -/
inductive Holds (atomics : Bool) (facts : Tr → Bool) : Tr → Prop where
  | fact {x : Tr} : facts x = true → Holds atomics facts x
  | impl {x : Tr} {bs : List Tr} : rule atomics x = some bs → (∀ b ∈ bs, Holds atomics facts b) → Holds atomics facts x

/-- The traits of a token. -/
def Has {C : Type} (atomics : Bool) (v : Variant C) (f : Field C) (t : Tag) : Tr → Prop :=
  Holds atomics fun x => global x || declared v f t x

/-- What generic code with the bound `x` may use: the bound, what its traits require, and what follows by the rules. -/
inductive Known (atomics : Bool) (x : Tr) : Tr → Prop where
  | bound : Known atomics x x
  | glob {y : Tr} : global y = true → Known atomics x y
  | super {y z : Tr} : Known atomics x y → z ∈ supers y → Known atomics x z
  | impl {y : Tr} {bs : List Tr} : rule atomics y = some bs → (∀ b ∈ bs, Known atomics x b) → Known atomics x y

end Verif.Regs.Marker
