import Verif.Spec.Grammar
import Verif.Props.Read

/-! Facts about the grammar specification: the window is kept and positions only move forward in it. -/

namespace Doodle
namespace Grammar

theorem bitStream_length (l : List UInt8) : (bitStream l).length = 8 * l.length := by
  simp [bitStream]

/-- what a description of a piece of input always satisfies -/
def Forward (c c' : ReadCtxt) : Prop :=
  c'.input = c.input ∧ (c.Inside → c'.Inside ∧ c.offset ≤ c'.offset)

theorem Forward.refl (c : ReadCtxt) : Forward c c := ⟨rfl, fun h => ⟨h, Nat.le_refl _⟩⟩

theorem Forward.trans {a b c : ReadCtxt} (h1 : Forward a b) (h2 : Forward b c) : Forward a c :=
  ⟨h2.1.trans h1.1, fun h => ⟨(h2.2 (h1.2 h).1).1, Nat.le_trans (h1.2 h).2 (h2.2 (h1.2 h).1).2⟩⟩

theorem Forward.mk' {c : ReadCtxt} {o : Nat} (h1 : c.offset ≤ o) (h2 : o ≤ c.input.length) :
    Forward c ⟨c.input, o⟩ := ⟨rfl, fun _ => ⟨h2, h1⟩⟩

mutual
theorem Parses.forward {m : Module} {rej} : ∀ {f s c v c' k}, Parses m rej f s c v c' k → Forward c c'
  | _, _, _, _, _, _, .itemVar _ _ _ h => h.forward
  | _, _, _, _, _, _, .endOfInput _ => .refl _
  | _, _, _, _, _, _, .align _ h1 _ _ h2 => .mk' h1 h2
  | _, _, _, _, _, _, .byte h _ => .mk' (Nat.le_succ _) (List.getElem?_eq_some_iff.1 h).1
  | _, _, _, _, _, _, .variant h => h.forward
  | _, _, _, _, _, _, .union _ h => h.forward
  | _, _, _, _, _, _, .unionNondet _ _ h => h.forward
  | _, _, _, _, _, _, .tuple h => h.forward
  | _, _, _, _, _, _, .sequence h => h.forward
  | _, _, _, _, _, _, .repeat_ h => h.forward
  | _, _, _, _, _, _, .repeat1 h _ => h.forward
  | _, _, _, _, _, _, .repeatCount _ h _ => h.forward
  | _, _, _, _, _, _, .repeatBetween _ _ h _ _ => h.forward
  | _, _, _, _, _, _, .repeatUntilLast h _ _ => h.forward
  | _, _, _, _, _, _, .repeatUntilSeq h _ _ _ => h.forward
  | _, _, _, _, _, _, .accumUntil _ h _ => h.forward
  | _, _, _, _, _, _, .forEach _ h => h.forward
  | _, _, _, _, _, _, .maybe_some _ h => h.forward
  | _, _, _, _, _, _, .maybe_none _ => .refl _
  | _, _, _, _, _, _, .peek _ => .refl _
  | _, _, _, _, _, _, .peekNot _ => .refl _
  | _, _, _, _, _, _, .slice _ h _ => .mk' (Nat.le_add_right _ _) h
  | _, _, _, _, _, _, .bits h1 h => by
    have := h.forward
    have h2 := (this.2 (Nat.zero_le _)).1
    have h3 := this.1
    refine .mk' (Nat.le_add_right _ _) ?_
    unfold ReadCtxt.Inside at h2
    rw [h3] at h2
    simp only [bitStream_length, List.length_drop] at h2
    omega
  | _, _, _, _, _, _, .withRelativeOffset _ _ _ _ => .refl _
  | _, _, _, _, _, _, .map h _ => h.forward
  | _, _, _, _, _, _, .where_ h _ => h.forward
  | _, _, _, _, _, _, .where_lenient h _ => h.forward
  | _, _, _, _, _, _, .compute _ => .refl _
  | _, _, _, _, _, _, .let_ _ h => h.forward
  | _, _, _, _, _, _, .match_ _ _ _ _ h => h.forward
  | _, _, _, _, _, _, .dynamic _ _ h => h.forward
  | _, _, _, _, _, _, .apply _ h => h.forward
  | _, _, _, _, _, _, .pos => .refl _
  | _, _, _, _, _, _, .skipRemainder => ⟨rfl, fun h => ⟨Nat.le_refl _, h⟩⟩
  | _, _, _, _, _, _, .decodeBytes _ _ _ _ => .refl _
  | _, _, _, _, _, _, .decodeBytes_trailing _ _ _ _ => .refl _
  | _, _, _, _, _, _, .letFormat h1 h2 => h1.forward.trans h2.forward
  | _, _, _, _, _, _, .monadSeq h1 h2 => h1.forward.trans h2.forward
  | _, _, _, _, _, _, .hint h => h.forward
  | _, _, _, _, _, _, .liftedNone => .refl _
  | _, _, _, _, _, _, .liftedSome h => h.forward
  | _, _, _, _, _, _, .letView h => h.forward
  | _, _, _, _, _, _, .captureBytes _ _ _ => .refl _
  | _, _, _, _, _, _, .readArray _ _ _ _ => .refl _
  | _, _, _, _, _, _, .reifyView _ => .refl _
  | _, _, _, _, _, _, .parseFromView _ _ => .refl _
  | _, _, _, _, _, _, .phantom => .refl _
  | _, _, _, _, _, _, .enforce h => h.forward
  | _, _, _, _, _, _, .permit h => h.forward
  | _, _, _, _, _, _, .permit_fallback _ _ => .refl _

theorem ParsesFields.forward {m : Module} {rej} :
    ∀ {fs s c vs c' k}, ParsesFields m rej fs s c vs c' k → Forward c c'
  | _, _, _, _, _, _, .fnil => .refl _
  | _, _, _, _, _, _, .fcons h1 h2 => h1.forward.trans h2.forward

theorem ParsesMany.forward {m : Module} {rej} :
    ∀ {f s c vs c' k}, ParsesMany m rej f s c vs c' k → Forward c c'
  | _, _, _, _, _, _, .mnil => .refl _
  | _, _, _, _, _, _, .mcons h1 h2 => h1.forward.trans h2.forward

theorem ParsesEach.forward {m : Module} {rej} :
    ∀ {l f s is c vs c' k}, ParsesEach m rej l f s is c vs c' k → Forward c c'
  | _, _, _, _, _, _, _, _, .enil => .refl _
  | _, _, _, _, _, _, _, _, .econs h1 h2 => h1.forward.trans h2.forward
end

end Grammar
end Doodle
