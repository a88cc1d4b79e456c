import Verif.Model.Gen

/-! The bound on the recursion depth of generated code is not observable: a larger bound does not change a result. -/

namespace Doodle
namespace Gen

open Rt (Parser OpRes PErr)

/-- the second result is the first, unless the first ran out of steps -/
def Res.le {α : Type} (r r' : Res α) : Prop := r ≠ .fuel → r' = r

variable {α β : Type}

theorem Res.le_refl (r : Res α) : r.le r := fun _ => rfl

theorem Res.le_fuel (r : Res α) : Res.fuel.le r := fun h => absurd rfl h

theorem Res.le_bind {r r' : Res α} {f g : α → Parser → Res β} (h : r.le r') (hf : ∀ a p, (f a p).le (g a p)) :
    (r.bind f).le (r'.bind g) := by
  intro hne
  cases hr : r with
  | ok a p =>
    rw [h (by rw [hr]; intro h; cases h), hr]
    exact hf a p (by rw [hr] at hne; exact hne)
  | err e p => rw [h (by rw [hr]; intro h; cases h), hr]; rfl
  | panic => rw [h (by rw [hr]; intro h; cases h), hr]; rfl
  | fuel => rw [hr] at hne; exact absurd rfl hne

variable {x y : Env → Parser → Res Value}

theorem whileLoop_le (tree : MatchTree) (s : Env) (h : ∀ s p, (x s p).le (y s p)) :
    ∀ k acc p, (whileLoop tree x s k acc p).le (whileLoop tree y s (k + 1) acc p)
  | 0, _, _ => Res.le_fuel _
  | k + 1, acc, p => by
    unfold whileLoop
    refine Res.le_bind (Res.le_refl _) fun rem p => ?_
    split
    · refine Res.le_bind (Res.le_refl _) fun ix p => ?_
      split
      · exact Res.le_bind (h _ _) fun _ _ => whileLoop_le tree s h k _ _
      · exact Res.le_refl _
    · exact Res.le_refl _

theorem untilLoop_le (tree : MatchTree) (s : Env) (h : ∀ s p, (x s p).le (y s p)) :
    ∀ k acc p, (untilLoop tree x s k acc p).le (untilLoop tree y s (k + 1) acc p)
  | 0, _, _ => Res.le_fuel _
  | k + 1, acc, p => by
    unfold untilLoop
    refine Res.le_bind (Res.le_refl _) fun rem p => ?_
    split
    · refine Res.le_bind (Res.le_refl _) fun ix p => ?_
      split
      · exact Res.le_refl _
      · exact Res.le_bind (h _ _) fun _ _ => untilLoop_le tree s h k _ _
    · exact Res.le_refl _

theorem betweenLoop_le (tree : MatchTree) (min max : Env → Panicky Nat) (s : Env) (h : ∀ s p, (x s p).le (y s p)) :
    ∀ k acc p, (betweenLoop tree min max x s k acc p).le (betweenLoop tree min max y s (k + 1) acc p)
  | 0, _, _ => Res.le_fuel _
  | k + 1, acc, p => by
    unfold betweenLoop
    refine Res.le_bind (Res.le_refl _) fun rem p => ?_
    split
    · refine Res.le_bind (Res.le_refl _) fun ix p => Res.le_bind (Res.le_refl _) fun lo p =>
        Res.le_bind (Res.le_refl _) fun hi p => Res.le_bind (Res.le_refl _) fun r p => ?_
      cases r with
      | none => exact Res.le_refl _
      | some b =>
        cases b with
        | true => exact Res.le_refl _
        | false => exact Res.le_bind (h _ _) fun _ _ => betweenLoop_le tree min max s h k _ _
    · exact Res.le_refl _

theorem forLoop_le {σ : Type} {x y : σ → List Value → Parser → Res Value} (h : ∀ a b p, (x a b p).le (y a b p)) :
    ∀ xs acc p, (forLoop x xs acc p).le (forLoop y xs acc p)
  | [], _, _ => Res.le_refl _
  | _ :: xs, _, _ => Res.le_bind (h _ _ _) fun _ _ => forLoop_le h xs _ _

theorem untilDoneLoop_le (done : Value → List Value → Panicky Bool) (s : Env) (h : ∀ s p, (x s p).le (y s p)) :
    ∀ k acc p, (untilDoneLoop done x s k acc p).le (untilDoneLoop done y s (k + 1) acc p)
  | 0, _, _ => Res.le_fuel _
  | k + 1, acc, p => by
    unfold untilDoneLoop
    refine Res.le_bind (h _ _) fun v p => Res.le_bind (Res.le_refl _) fun d p => ?_
    split
    · exact Res.le_refl _
    · exact untilDoneLoop_le done s h k _ _

theorem accumLoop_le (done update : Expr) (s : Env) (h : ∀ s p, (x s p).le (y s p)) :
    ∀ k a vs p, (accumLoop done update x s k a vs p).le (accumLoop done update y s (k + 1) a vs p)
  | 0, _, _, _ => Res.le_fuel _
  | k + 1, a, vs, p => by
    unfold accumLoop
    refine Res.le_bind (Res.le_refl _) fun d p => ?_
    split
    · exact Res.le_refl _
    · exact Res.le_bind (h _ _) fun v p => Res.le_bind (Res.le_refl _) fun _ _ => accumLoop_le done update s h k _ _ _

theorem seqLoop_le (pre : String) {x y : Decoder → Env → Parser → Res Value} (h : ∀ d s p, (x d s p).le (y d s p)) :
    ∀ ds i s acc p, (seqLoop pre x ds i s acc p).le (seqLoop pre y ds i s acc p)
  | [], _, _, _, _ => Res.le_refl _
  | _ :: ds, _, _, _, _ => Res.le_bind (h _ _ _) fun _ _ => seqLoop_le pre h ds _ _ _ _

theorem altsLoop_le {x y : Decoder → Env → Parser → Res Value} (h : ∀ d s p, (x d s p).le (y d s p)) :
    ∀ ds s p, (altsLoop x ds s p).le (altsLoop y ds s p)
  | [], _, _ => Res.le_refl _
  | [d], s, p => h d s p
  | d :: d' :: ds, s, p => by
    unfold altsLoop
    intro hne
    cases hx : x d s p with
    | ok v p' => rw [h d s p (by rw [hx]; intro h; cases h), hx]
    | err e p' =>
      rw [h d s p (by rw [hx]; intro h; cases h), hx]
      rw [hx] at hne
      exact Res.le_bind (Res.le_refl _) (fun _ _ => altsLoop_le h (d' :: ds) _ _) hne
    | panic => rw [h d s p (by rw [hx]; intro h; cases h), hx]
    | fuel => rw [hx] at hne; exact absurd rfl hne

theorem matchLoop_le {x y : List (String × Value) → Decoder → Res Value} (h : ∀ bs d, (x bs d).le (y bs d)) (head : Value) :
    ∀ ds, (matchLoop x head ds).le (matchLoop y head ds)
  | [] => Res.le_refl _
  | (pat, d) :: ds => by
    unfold matchLoop
    split
    · exact h _ _
    · exact matchLoop_le h head ds

theorem exec_le (program : List Decoder) (n : Nat) :
    ∀ d s p, (exec program n d s p).le (exec program (n + 1) d s p) := by
  induction n with
  | zero => intro d s p; exact Res.le_fuel _
  | succ n ih =>
    intro d s p
    unfold exec
    cases d with
    | call k args views =>
      exact Res.le_bind (Res.le_refl _) fun _ _ => Res.le_bind (Res.le_refl _) fun _ _ => Res.le_bind (Res.le_refl _) fun _ _ => ih _ _ _
    | phantom =>
      exact Res.le_refl _
    | fail =>
      exact Res.le_refl _
    | pos =>
      exact Res.le_refl _
    | skipRemainder =>
      exact Res.le_refl _
    | endOfInput =>
      exact Res.le_refl _
    | align k =>
      exact Res.le_refl _
    | byte bs =>
      exact Res.le_refl _
    | variant l d =>
      exact Res.le_bind (ih _ _ _) fun _ _ => Res.le_refl _
    | branch t ds =>
      refine Res.le_bind (Res.le_refl _) fun ix p => ?_
      cases ds[ix]? with
      | some d => exact ih _ _ _
      | none => exact Res.le_refl _
    | parallel ds =>
      exact altsLoop_le (fun _ _ _ => ih _ _ _) _ _ _
    | tuple ds =>
      exact Res.le_bind (seqLoop_le _ (fun _ _ _ => ih _ _ _) _ _ _ _ _) fun _ _ => Res.le_refl _
    | sequence ds =>
      exact Res.le_bind (seqLoop_le _ (fun _ _ _ => ih _ _ _) _ _ _ _ _) fun _ _ => Res.le_refl _
    | while_ t d =>
      exact Res.le_bind (whileLoop_le _ _ (fun _ _ => ih _ _ _) _ _ _) fun _ _ => Res.le_refl _
    | until_ t d =>
      exact Res.le_bind (untilLoop_le _ _ (fun _ _ => ih _ _ _) _ _ _) fun _ _ => Res.le_refl _
    | decodeBytes e d =>
      refine Res.le_bind (Res.le_refl _) fun a p => ?_
      have h := ih d (.single "buf_input" .phantom (.single "buf_parser" .phantom s)) (.new a)
      intro hne
      cases hp : exec program n d (.single "buf_input" .phantom (.single "buf_parser" .phantom s)) (.new a) with
      | ok v p' => rw [h (by rw [hp]; intro h; cases h), hp]
      | err e p' => rw [h (by rw [hp]; intro h; cases h), hp]
      | panic => rw [h (by rw [hp]; intro h; cases h), hp]
      | fuel => rw [hp] at hne; exact absurd rfl hne
    | parseFromView v d =>
      refine Res.le_bind (Res.le_refl _) fun a p => ?_
      have h := ih d (.single "view_input" .phantom (.single "view_parser" .phantom s)) (.ofView a.input a.offset)
      intro hne
      cases hp : exec program n d (.single "view_input" .phantom (.single "view_parser" .phantom s)) (.ofView a.input a.offset) with
      | ok v p' => rw [h (by rw [hp]; intro h; cases h), hp]
      | err e p' => rw [h (by rw [hp]; intro h; cases h), hp]
      | panic => rw [h (by rw [hp]; intro h; cases h), hp]
      | fuel => rw [hp] at hne; exact absurd rfl hne
    | letFormat d x e =>
      exact Res.le_bind (ih _ _ _) fun _ _ => ih _ _ _
    | monadSeq d e =>
      exact Res.le_bind (ih _ _ _) fun _ _ => ih _ _ _
    | forEach e l d =>
      exact Res.le_bind (Res.le_refl _) fun _ _ => Res.le_bind (forLoop_le (fun _ _ _ => ih _ _ _) _ _ _) fun _ _ => Res.le_refl _
    | repeatCount e d =>
      exact Res.le_bind (Res.le_refl _) fun _ _ => Res.le_bind (forLoop_le (fun _ _ _ => ih _ _ _) _ _ _) fun _ _ => Res.le_refl _
    | repeatBetween t x y d =>
      exact Res.le_bind (betweenLoop_le _ _ _ _ (fun _ _ => ih _ _ _) _ _ _) fun _ _ => Res.le_refl _
    | maybe e d =>
      refine Res.le_bind (Res.le_refl _) fun b p => ?_
      split
      · exact Res.le_bind (ih _ _ _) fun _ _ => Res.le_refl _
      · exact Res.le_refl _
    | repeatUntilLast e d =>
      exact Res.le_bind (untilDoneLoop_le _ _ (fun _ _ => ih _ _ _) _ _ _) fun _ _ => Res.le_refl _
    | repeatUntilSeq e d =>
      exact Res.le_bind (untilDoneLoop_le _ _ (fun _ _ => ih _ _ _) _ _ _) fun _ _ => Res.le_refl _
    | accumUntil e1 e2 e3 d =>
      exact Res.le_bind (Res.le_refl _) fun _ _ => Res.le_bind (accumLoop_le _ _ _ (fun _ _ => ih _ _ _) _ _ _ _) fun _ _ => Res.le_refl _
    | peek d =>
      exact Res.le_bind (ih _ _ _) fun _ _ => Res.le_refl _
    | peekNot d =>
      have h := ih d s p.openPeekNot
      dsimp only
      intro hne
      cases hp : exec program n d s p.openPeekNot with
      | ok v p' => rw [h (by rw [hp]; intro h; cases h), hp]
      | err e p' => rw [h (by rw [hp]; intro h; cases h), hp]
      | panic => rw [h (by rw [hp]; intro h; cases h), hp]
      | fuel => rw [hp] at hne; exact absurd rfl hne
    | slice e d =>
      exact Res.le_bind (Res.le_refl _) fun _ _ => Res.le_bind (Res.le_refl _) fun _ _ => Res.le_bind (ih _ _ _) fun _ _ => Res.le_refl _
    | bits d =>
      exact Res.le_bind (Res.le_refl _) fun _ _ => Res.le_bind (ih _ _ _) fun _ _ => Res.le_refl _
    | withRelativeOffset a b d =>
      exact Res.le_bind (Res.le_refl _) fun _ _ => Res.le_bind (Res.le_refl _) fun _ _ => Res.le_bind (Res.le_refl _) fun _ _ => Res.le_bind (Res.le_refl _) fun _ _ => Res.le_bind (Res.le_refl _) fun _ _ => Res.le_bind (ih _ _ _) fun _ _ => Res.le_refl _
    | map d e =>
      exact Res.le_bind (ih _ _ _) fun _ _ => Res.le_refl _
    | where_ d e b =>
      exact Res.le_bind (ih _ _ _) fun _ _ => Res.le_refl _
    | compute e =>
      exact Res.le_refl _
    | let_ x e d =>
      exact Res.le_bind (Res.le_refl _) fun _ _ => ih _ _ _
    | letView x d =>
      exact Res.le_bind (Res.le_refl _) fun _ _ => ih _ _ _
    | match_ e bs =>
      exact Res.le_bind (Res.le_refl _) fun _ _ => matchLoop_le (fun _ _ => ih _ _ _) _ _
    | dynamic x ls vs d =>
      exact Res.le_bind (Res.le_refl _) fun _ _ => Res.le_bind (Res.le_refl _) fun _ _ => ih _ _ _
    | apply x =>
      exact Res.le_refl _
    | liftedNone =>
      exact Res.le_refl _
    | liftedSome d =>
      exact Res.le_bind (ih _ _ _) fun _ _ => Res.le_refl _
    | captureBytes v e =>
      exact Res.le_refl _
    | readArray v e k =>
      exact Res.le_refl _
    | reifyView v =>
      exact Res.le_refl _
    | enforce d =>
      exact ih _ _ _
    | permit d e =>
      have h := ih d s p
      dsimp only
      intro hne
      cases hp : exec program n d s p with
      | ok v p' => rw [h (by rw [hp]; intro h; cases h), hp]
      | err e p' => rw [h (by rw [hp]; intro h; cases h), hp]
      | panic => rw [h (by rw [hp]; intro h; cases h), hp]
      | fuel => rw [hp] at hne; exact absurd rfl hne

theorem run_le (program : List Decoder) (n : Nat) (p : Parser) : (run program n p).le (run program (n + 1) p) :=
  Res.le_bind (Res.le_refl _) fun d p => exec_le program n d .empty p

theorem run_mono {program : List Decoder} {n : Nat} {p : Parser} {r : Res Value} (h : run program n p = r) (hr : r ≠ .fuel) :
    ∀ k, run program (n + k) p = r
  | 0 => h
  | k + 1 => by
    have := run_mono h hr k
    rw [← Nat.add_assoc, run_le program (n + k) p (by rw [this]; exact hr), this]

end Gen
end Doodle
