import Verif.Model.Decoder

/-! The bound on the recursion depth is not observable: a larger bound does not change a result. -/

namespace Doodle
namespace Decoder

variable {p q : ReadCtxt → Outcome DecodeErr Parsed}

theorem foldItems_le {σ : Type} {p q : σ → ReadCtxt → Outcome DecodeErr Parsed} (h : ∀ x c, (p x c).le (q x c)) :
    ∀ xs acc, (foldItems p xs acc).le (foldItems q xs acc)
  | [], _ => Outcome.le_refl _
  | _ :: xs, _ => Outcome.le_bind (h _ _) fun _ => foldItems_le h xs _

theorem whileLoop_le (tree : MatchTree) (h : ∀ c, (p c).le (q c)) :
    ∀ k acc, (whileLoop tree p k acc).le (whileLoop tree q (k + 1) acc)
  | 0, _ => Outcome.le_fuel _
  | k + 1, acc => by
    unfold whileLoop
    split
    · exact Outcome.le_refl _
    · exact Outcome.le_bind (h _) fun _ => whileLoop_le tree h k _
    · exact Outcome.le_refl _

theorem untilLoop_le (tree : MatchTree) (h : ∀ c, (p c).le (q c)) :
    ∀ k acc, (untilLoop tree p k acc).le (untilLoop tree q (k + 1) acc)
  | 0, _ => Outcome.le_fuel _
  | k + 1, acc => by
    unfold untilLoop
    refine Outcome.le_bind (h _) fun w => ?_
    split
    · exact Outcome.le_refl _
    · exact Outcome.le_refl _
    · exact untilLoop_le tree h k _

theorem betweenLoop_le (tree : MatchTree) (min max : Nat) (start : ReadCtxt) (h : ∀ c, (p c).le (q c)) :
    ∀ k acc, (betweenLoop tree min max start p k acc).le (betweenLoop tree min max start q (k + 1) acc)
  | 0, _ => Outcome.le_fuel _
  | k + 1, acc => by
    unfold betweenLoop
    split
    · exact Outcome.le_refl _
    · split
      · exact Outcome.le_refl _
      · exact Outcome.le_bind (h _) fun _ => betweenLoop_le tree min max start h k _

theorem untilDoneLoop_le (done : Value → List Value → Panicky Bool) (h : ∀ c, (p c).le (q c)) :
    ∀ k acc, (untilDoneLoop done p k acc).le (untilDoneLoop done q (k + 1) acc)
  | 0, _ => Outcome.le_fuel _
  | k + 1, acc => by
    unfold untilDoneLoop
    refine Outcome.le_bind (h _) fun w => Outcome.le_bind (Outcome.le_refl _) fun b => ?_
    split
    · exact Outcome.le_refl _
    · exact untilDoneLoop_le done h k _

theorem accumLoop_le (done : Value → List Value → Panicky Bool) (update : Value → Value → Panicky Value)
    (h : ∀ c, (p c).le (q c)) :
    ∀ k a acc, (accumLoop done update p k a acc).le (accumLoop done update q (k + 1) a acc)
  | 0, _, _ => Outcome.le_fuel _
  | k + 1, a, acc => by
    unfold accumLoop
    refine Outcome.le_bind (Outcome.le_refl _) fun b => ?_
    split
    · exact Outcome.le_refl _
    · exact Outcome.le_bind (h _) fun w => Outcome.le_bind (Outcome.le_refl _) fun _ => accumLoop_le done update h k _ _

theorem parallelLoop_le {p q : Decoder → Outcome DecodeErr Parsed} (h : ∀ d, (p d).le (q d)) (offset : Nat) :
    ∀ i ds, (parallelLoop p offset i ds).le (parallelLoop q offset i ds)
  | _, [] => Outcome.le_refl _
  | i, d :: ds => by
    unfold parallelLoop
    intro hne
    cases hp : p d with
    | ok w => rw [h d (by rw [hp]; intro h; cases h), hp]
    | err e =>
      rw [h d (by rw [hp]; intro h; cases h), hp]
      rw [hp] at hne
      exact parallelLoop_le h offset (i + 1) ds hne
    | panic => rw [h d (by rw [hp]; intro h; cases h), hp]
    | fuel => rw [hp] at hne; exact absurd rfl hne

theorem matchLoop_le {p q : List (String × Value) → Decoder → Outcome DecodeErr Parsed}
    (h : ∀ bs d, (p bs d).le (q bs d)) (head : Value) :
    ∀ i ds, (matchLoop p head i ds).le (matchLoop q head i ds)
  | _, [] => Outcome.le_refl _
  | i, (pat, d) :: ds => by
    unfold matchLoop
    split
    · exact Outcome.le_bind (h _ _) fun _ => Outcome.le_refl _
    · exact matchLoop_le h head (i + 1) ds

theorem joinO_le {α β E : Type} (w : WithErr α E) {f g : α → Outcome E (WithErr β E)}
    (h : ∀ a, (f a).le (g a)) : (w.joinO f).le (w.joinO g) :=
  Outcome.le_bind (h _) fun _ => Outcome.le_refl _

theorem parse_le (env : Env) (n : Nat) : ∀ d s c, (parse env n d s c).le (parse env (n + 1) d s c) := by
  induction n with
  | zero => intro d s c; exact Outcome.le_fuel _
  | succ n ih =>
    intro d s c
    unfold parse
    cases d with
    | call k args views =>
      exact Outcome.le_bind (Outcome.le_refl _) fun _ => Outcome.le_bind (Outcome.le_refl _) fun _ => Outcome.le_bind (Outcome.le_refl _) fun _ => ih _ _ _
    | phantom => exact Outcome.le_refl _
    | fail => exact Outcome.le_refl _
    | pos => exact Outcome.le_refl _
    | skipRemainder => exact Outcome.le_refl _
    | endOfInput => exact Outcome.le_refl _
    | align k => exact Outcome.le_refl _
    | byte bs => exact Outcome.le_refl _
    | variant l d => exact Outcome.le_bind (ih _ _ _) fun _ => Outcome.le_refl _
    | branch t ds =>
      dsimp only
      split
      · exact Outcome.le_refl _
      · exact Outcome.le_bind (Outcome.le_refl _) fun _ => Outcome.le_bind (ih _ _ _) fun _ => Outcome.le_refl _
    | parallel ds => exact parallelLoop_le (fun d => ih _ _ _) _ _ _
    | tuple ds => exact Outcome.le_bind (foldItems_le (fun d c => ih _ _ _) _ _) fun _ => Outcome.le_refl _
    | sequence ds => exact Outcome.le_bind (foldItems_le (fun d c => ih _ _ _) _ _) fun _ => Outcome.le_refl _
    | while_ t d => exact Outcome.le_bind (whileLoop_le _ (fun c => ih _ _ _) _ _) fun _ => Outcome.le_refl _
    | until_ t d => exact Outcome.le_bind (untilLoop_le _ (fun c => ih _ _ _) _ _) fun _ => Outcome.le_refl _
    | decodeBytes e d =>
      exact Outcome.le_bind (Outcome.le_refl _) fun _ => Outcome.le_bind (Outcome.le_refl _) fun _ => Outcome.le_bind (ih _ _ _) fun _ => Outcome.le_refl _
    | parseFromView v d => exact Outcome.le_bind (Outcome.le_refl _) fun _ => Outcome.le_bind (ih _ _ _) fun _ => Outcome.le_refl _
    | letFormat d x e => exact Outcome.le_bind (ih _ _ _) fun _ => joinO_le _ fun _ => ih _ _ _
    | monadSeq d e => exact Outcome.le_bind (ih _ _ _) fun _ => joinO_le _ fun _ => ih _ _ _
    | forEach e l d =>
      exact Outcome.le_bind (Outcome.le_refl _) fun _ => Outcome.le_bind (foldItems_le (fun d c => ih _ _ _) _ _) fun _ => Outcome.le_refl _
    | repeatCount e d =>
      exact Outcome.le_bind (Outcome.le_refl _) fun _ => Outcome.le_bind (foldItems_le (fun d c => ih _ _ _) _ _) fun _ => Outcome.le_refl _
    | repeatBetween t x y d =>
      exact Outcome.le_bind (Outcome.le_refl _) fun _ => Outcome.le_bind (Outcome.le_refl _) fun _ =>
        Outcome.le_bind (betweenLoop_le _ _ _ _ (fun c => ih _ _ _) _ _) fun _ => Outcome.le_refl _
    | maybe e d =>
      refine Outcome.le_bind (Outcome.le_refl _) fun b => ?_
      split
      · exact Outcome.le_bind (ih _ _ _) fun _ => Outcome.le_refl _
      · exact Outcome.le_refl _
    | repeatUntilLast e d => exact Outcome.le_bind (untilDoneLoop_le _ (fun c => ih _ _ _) _ _) fun _ => Outcome.le_refl _
    | repeatUntilSeq e d => exact Outcome.le_bind (untilDoneLoop_le _ (fun c => ih _ _ _) _ _) fun _ => Outcome.le_refl _
    | accumUntil e1 e2 e3 d =>
      exact Outcome.le_bind (Outcome.le_refl _) fun _ => Outcome.le_bind (accumLoop_le _ _ (fun c => ih _ _ _) _ _ _) fun _ => Outcome.le_refl _
    | peek d => exact Outcome.le_bind (ih _ _ _) fun _ => Outcome.le_refl _
    | peekNot d =>
      have h := ih d s c
      dsimp only
      intro hne
      cases hp : parse env n d s c with
      | ok w => rw [h (by rw [hp]; intro h; cases h), hp]
      | err e => rw [h (by rw [hp]; intro h; cases h), hp]
      | panic => rw [h (by rw [hp]; intro h; cases h), hp]
      | fuel => rw [hp] at hne; exact absurd rfl hne
    | slice e d =>
      refine Outcome.le_bind (Outcome.le_refl _) fun _ => Outcome.le_bind (Outcome.le_refl _) fun r => ?_
      split
      · exact Outcome.le_refl _
      · exact Outcome.le_bind (ih _ _ _) fun _ => Outcome.le_refl _
    | bits d => exact Outcome.le_bind (Outcome.le_refl _) fun _ => Outcome.le_bind (ih _ _ _) fun _ => Outcome.le_refl _
    | withRelativeOffset a b d =>
      refine Outcome.le_bind (Outcome.le_refl _) fun _ => Outcome.le_bind (Outcome.le_refl _) fun r => Outcome.le_bind (Outcome.le_refl _) fun t => ?_
      split
      · exact Outcome.le_refl _
      · exact Outcome.le_bind (ih _ _ _) fun _ => Outcome.le_refl _
    | map d e => exact Outcome.le_bind (ih _ _ _) fun _ => Outcome.le_refl _
    | where_ d e b => exact Outcome.le_bind (ih _ _ _) fun _ => Outcome.le_refl _
    | compute e => exact Outcome.le_refl _
    | let_ x e d => exact Outcome.le_bind (Outcome.le_refl _) fun _ => ih _ _ _
    | letView x d => exact ih _ _ _
    | match_ e bs => exact Outcome.le_bind (Outcome.le_refl _) fun _ => matchLoop_le (fun _ _ => ih _ _ _) _ _ _
    | dynamic x ls vs d =>
      refine Outcome.le_bind (Outcome.le_refl _) fun _ => Outcome.le_bind (Outcome.le_refl _) fun r => ?_
      split
      · exact ih _ _ _
      · exact Outcome.le_refl _
      · exact Outcome.le_refl _
      · exact Outcome.le_refl _
    | apply x => exact Outcome.le_bind (Outcome.le_refl _) fun _ => ih _ _ _
    | liftedNone => exact Outcome.le_refl _
    | liftedSome d => exact Outcome.le_bind (ih _ _ _) fun _ => Outcome.le_refl _
    | captureBytes v e => exact Outcome.le_refl _
    | readArray v e k => exact Outcome.le_refl _
    | reifyView v => exact Outcome.le_refl _
    | enforce d => exact Outcome.le_bind (ih _ _ _) fun _ => Outcome.le_refl _
    | permit d e =>
      have h := ih d s c
      dsimp only
      intro hne
      cases hp : parse env n d s c with
      | ok w => rw [h (by rw [hp]; intro h; cases h), hp]
      | err e => rw [h (by rw [hp]; intro h; cases h), hp]
      | panic => rw [h (by rw [hp]; intro h; cases h), hp]
      | fuel => rw [hp] at hne; exact absurd rfl hne

end Decoder
end Doodle
