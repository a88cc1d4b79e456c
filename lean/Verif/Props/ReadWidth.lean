import Verif.Lemmas.ReadWidth
import Verif.Props.TypeAnalysis

/-! C70: how many bytes values of generated types are read from (src/codegen/rust_ast/analysis/read_width.rs). -/

namespace Doodle
namespace TypeAnalysis

/-- If a type is said to have a fixed width, then every value of it is made of exactly so many bytes, and some value is. -/
theorem C70_fixed (defs : List TypeDef) (n : Nat) (t : RType) (w : Width) (h : t.width (defWidth defs n) = .ok w)
    (b : Nat) (hb : w.asFixed = some b) (k : Nat) : Takes defs t k ↔ k = b := by
  cases w with
  | varies d => cases hb
  | fixed m =>
    cases hb
    exact width_of def_of t _ h k

/-- a pair of a number and a definition with two variants of the same width -/
example : (RType.tuple [.signed .b16, .localDef 0]).width
    (defWidth [.enum [.tuple [.prim (.unsigned .b32)], .tuple [.prim (.unsigned .b16), .signed .b16]]] 1) = .ok (.fixed 6) := rfl

/-- If a type is said to vary, then it has values that are made of different numbers of bytes (where nothing is known of the
bytes of truth values, characters, words, options, sequences and views). -/
theorem C70_varies (defs : List TypeDef) (n : Nat) (t : RType) (w : Width) (h : t.width (defWidth defs n) = .ok w)
    (hb : w.asFixed = none) : ∃ a b, Takes defs t a ∧ Takes defs t b ∧ a ≠ b := by
  cases w with
  | varies d => exact width_of def_of t _ h
  | fixed m => cases hb

example : (RType.localDef 2).width (defWidth sample 3) = .ok (.varies true) := rfl

/-- Of definitions that the generator makes, each gets an answer, unless a sum of widths exceeds a machine word. -/
theorem C70_total (defs : List TypeDef) (hg : AllGenerated defs) (ix n : Nat) (hx : ix < defs.length) (hn : ix < n) :
    (∃ w, defWidth defs n ix = .ok w) ∨ defWidth defs n ix = .err () :=
  def_answers hg n ix hn hx

example : defWidth sample 5 1 = .ok (.fixed 5) ∧ defWidth sample 5 4 = .ok (.varies false) := ⟨rfl, rfl⟩

/-- The order of the variants does not matter to whether the width is fixed, nor to the width. -/
theorem C70_order_partial (defs : List TypeDef) (n : Nat) (vs us : List RVariant) (hm : ∀ v, v ∈ vs ↔ v ∈ us) (a b : Width)
    (ha : TypeDef.width (defWidth defs n) (.enum vs) = .ok a) (hb : TypeDef.width (defWidth defs n) (.enum us) = .ok b) :
    a.asFixed = b.asFixed := by
  have key : ∀ (ws : List RVariant) (w : Width), TypeDef.width (defWidth defs n) (.enum ws) = .ok w →
      Width.Of (fun k => ∃ v ∈ ws, TakesAll defs v.fields k) w := by
    intro ws w h
    match ws, h with
    | [], h => cases h
    | v :: ws, h =>
      simp only [TypeDef.width] at h
      obtain ⟨x, hx, h⟩ := Outcome.bind_eq_ok.1 h
      refine (variants_of def_of ws _ x w (variant_of def_of v x hx) h).congr (fun k => ?_)
      simp only [List.mem_cons, exists_eq_or_imp]
  exact (key vs a ha).alike ((key us b hb).congr fun k => by simp only [hm])

example : TypeDef.width (defWidth sample 3) (.enum [.unit, .tuple [.localDef 1]]) = .ok (.varies true) := rfl

/-- It does matter to whether the width is said to vary for a dynamic reason. -/
theorem C70_order_refuted :
    ∃ (vs us : List RVariant), (∀ v, v ∈ vs ↔ v ∈ us) ∧
      TypeDef.width (defWidth [] 0) (.enum vs) = .ok (.varies true) ∧
      TypeDef.width (defWidth [] 0) (.enum us) = .ok (.varies false) :=
  ⟨[.tuple [.prim (.unsigned .b8)], .unit, .tuple [.prim .bool]], [.tuple [.prim .bool], .tuple [.prim (.unsigned .b8)], .unit],
    fun v => by
      simp only [List.mem_cons, List.not_mem_nil, or_false]
      constructor
      · rintro (h | h | h) <;> simp [h]
      · rintro (h | h | h) <;> simp [h], rfl, rfl⟩

end TypeAnalysis
end Doodle
