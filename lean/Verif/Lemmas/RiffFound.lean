import Verif.Lemmas.RiffRun
import Verif.Lemmas.PredictiveFound

/-! RIFF files: decoders find every file. -/

namespace Doodle
namespace Riff

open Grammar Compiler Helper Predictive

section
variable {m : Module} {o : BuildOpts} {M : List ((Nat × Next) × Nat)} {env : Env} {f g : Format} {fs : List Format}
  {L L' : Scope Format → List UInt8 → Value → Prop}

/-- Decoders find every derivation of the format: nothing in it is to be decided. -/
def Plain (m : Module) (o : BuildOpts) (M : List ((Nat × Next) × Nat)) (env : Env) (f : Format) : Prop :=
  ∀ next d s s' c v c' k, Parses m never f s c v c' k → Compiles (.of m o M) f next d → Scopes m o M s s' → Found env d s' c v c' k

theorem plain_byte {bs : ByteSet} : Plain m o M env (.byte bs) := by
  intro next d s s' c v c' k h hc hs
  cases h with
  | @byte _ _ _ b h1 h2 =>
    cases hc
    refine .mk (N := 0) (w := .new _) (fun n _ => ?_) rfl rfl
    unfold Decoder.parse
    simp only [((ReadCtxt.C06_readByte _).1 b _).2 ⟨h1, rfl⟩, h2, if_true]

theorem plain_compute {e : Expr} : Plain m o M env (.compute e) := by
  intro next d s s' c v c' k h hc hs
  cases h with
  | compute hd =>
    cases hc
    refine .mk (N := 0) (w := .new _) (fun n _ => ?_) rfl rfl
    unfold Decoder.parse
    exact Outcome.bind_eq_ok.2 ⟨_, Outcome.ofPanicky_eq_ok.2 (by rw [hs.evalValue]; exact hd), rfl⟩

theorem plain_hint (h : Plain m o M env f) : Plain m o M env (.hint f) := by
  intro next d s s' c v c' k hp hc hs
  cases hp with
  | hint hp =>
    cases hc with
    | hint hc => exact h _ _ _ _ _ _ _ _ hp hc hs

theorem plain_map {e : Expr} (h : Plain m o M env f) : Plain m o M env (.map f e) := by
  intro next d s s' c v c' k hp hc hs
  cases hp with
  | map hp hd =>
    cases hc with
    | map hc =>
      refine (h _ _ _ _ _ _ _ _ hp hc hs).wrap (fun r => (.mapped r.1 _, r.2)) (fun n w h6 h7 _ => ?_) rfl
      unfold Decoder.parse
      exact Outcome.bind_eq_ok.2 ⟨_, h6, Outcome.bind_eq_ok.2 ⟨_, Outcome.ofPanicky_eq_ok.2
        (by rw [hs.evalLambda, h7]; exact hd), rfl⟩⟩

theorem plain_maybe {e : Expr} (h : Plain m o M env f) : Plain m o M env (.maybe e f) := by
  intro next d s s' c v c' k hp hc hs
  cases hp with
  | maybe_some hd hp =>
    cases hc with
    | maybe hc =>
      refine (h _ _ _ _ _ _ _ _ hp hc hs).wrap (fun r => (.optSome r.1, r.2)) (fun n w h6 _ _ => ?_) rfl
      unfold Decoder.parse
      exact Outcome.bind_eq_ok.2 ⟨_, Outcome.ofPanicky_eq_ok.2 (evalBool_of hs hd), Outcome.bind_eq_ok.2 ⟨_, h6, rfl⟩⟩
  | maybe_none hd =>
    cases hc
    refine .mk (N := 0) (w := .new _) (fun n _ => ?_) rfl rfl
    unfold Decoder.parse
    exact Outcome.bind_eq_ok.2 ⟨_, Outcome.ofPanicky_eq_ok.2 (evalBool_of hs hd), rfl⟩

theorem plain_fields (h : ∀ f ∈ fs, Plain m o M env f) : ∀ {next ds s s' c vs c' k}, ParsesFields m never fs s c vs c' k →
    CompilesFields (.of m o M) fs next ds → Scopes m o M s s' → ∀ acc : Decoder.Acc, acc.value.2 = c →
      ∃ N acc', (∀ n, N ≤ n → Decoder.foldItems (fun d c => Decoder.parse env n d s' c) ds acc = .ok acc') ∧ Adds acc acc' vs c' k := by
  induction fs with
  | nil =>
    intro next ds s s' c vs c' k hp hc hs acc ha
    cases hp
    cases hc
    exact ⟨0, acc, fun n _ => rfl, by simp [← ha], by simp⟩
  | cons f fs ih =>
    intro next ds s s' c vs c' k hp hc hs acc ha
    cases hp with
    | fcons h1 h2 =>
      cases hc with
      | fcons hc1 hc2 =>
        obtain ⟨N, w, h3, h4, h5⟩ := h f (.head _) _ _ _ _ _ _ _ _ h1 hc1 hs
        obtain ⟨N', acc', h6, h7⟩ := ih (fun f hf => h f (.tail _ hf)) h2 hc2 hs (Decoder.push acc w) (by simp [Decoder.push, h4])
        refine ⟨max N N', acc', fun n hn => ?_, h7.cons h4 h5⟩
        simp only [Decoder.foldItems]
        exact Outcome.bind_eq_ok.2 ⟨w, by rw [ha]; exact h3 n (by omega), h6 n (by omega)⟩

theorem plain_tuple (h : ∀ f ∈ fs, Plain m o M env f) : Plain m o M env (.tuple fs) := by
  intro next d s s' c v c' k hp hc hs
  cases hp with
  | tuple hp =>
    cases hc with
    | tuple hc =>
      obtain ⟨N, acc, h1, h2, h3⟩ := plain_fields h hp hc hs (.new ([], _)) rfl
      refine .mk (N := N) (w := acc.map fun r => (.tuple r.1, r.2)) (fun n hn => ?_) (by simp only [WithErr.map, h2]; rfl) h3
      unfold Decoder.parse
      exact Outcome.bind_eq_ok.2 ⟨_, h1 n hn, rfl⟩

/-- What decoders of the format find; `closed`: only at the end of the input, and where nothing is to come after. -/
def Finds (closed : Prop) (m : Module) (o : BuildOpts) (M : List ((Nat × Next) × Nat)) (env : Env) (f : Format)
    (L : Scope Format → List UInt8 → Value → Prop) : Prop :=
  ∀ next d s s' c u rest v, Compiles (.of m o M) f next d → Scopes m o M s s' → c.input.length < usizeCard → c.offset ≤ c.input.length →
    c.input.drop c.offset = u ++ rest → L s u v →
    (closed → rest = [] ∧ (∀ b, ¬ Begins m b next) ∧ Goes m next ⟨c.input, c.offset + u.length⟩) →
    Found env d s' c v ⟨c.input, c.offset + u.length⟩ 0

theorem Finds.mono {p : Prop} (h : Finds p m o M env f L) (hi : ∀ s u v, L' s u v → L s u v) : Finds p m o M env f L' :=
  fun next d s s' c u rest v h1 h2 h3 h4 h5 h6 h7 => h next d s s' c u rest v h1 h2 h3 h4 h5 (hi _ _ _ h6) h7

theorem Plain.finds {p : Prop} (h : Plain m o M env f) (hr : Grammar.Reads m f L) : Finds p m o M env f L :=
  fun next d s s' c u rest v hc hs _ _ hd hv _ => h next d s s' c v _ 0 ((hr ..).2 ⟨u, rest, hd, hv, rfl, rfl⟩) hc hs

theorem finds_hint {p : Prop} (h : Finds p m o M env f L) : Finds p m o M env (.hint f) L := by
  intro next d s s' c u rest v hc hs hz hi hd hv hx
  cases hc with
  | hint hc => exact h _ _ _ _ _ _ _ _ hc hs hz hi hd hv hx

theorem inside_step {c : ReadCtxt} {u rest : List UInt8} (hi : c.offset ≤ c.input.length) (h : c.input.drop c.offset = u ++ rest) :
    c.offset + u.length ≤ c.input.length := by
  have hlen := congrArg List.length h
  rw [List.length_drop, List.length_append] at hlen
  omega

theorem found_letFormat {x : String} {d1 d2 : Decoder} {s' : Scope Decoder} {c c1 c2 : ReadCtxt} {z v : Value} (h1 : Found env d1 s' c z c1 0)
    (h2 : Found env d2 (.single x z s') c1 v c2 0) : Found env (.letFormat d1 x d2) s' c v c2 0 := by
  obtain ⟨N, w, h3, h4, h5⟩ := h1
  obtain ⟨N', w', h6, h7, h8⟩ := h2
  refine .mk (N := max N N') (w := ⟨w'.value, w'.errs ++ w.errs⟩) (fun n hn => ?_) h7 (by simp [h5, h8])
  unfold Decoder.parse
  refine Outcome.bind_eq_ok.2 ⟨_, h3 n (by omega), Outcome.bind_eq_ok.2 ⟨w', ?_, rfl⟩⟩
  rw [h4]
  exact h6 n (by omega)

theorem finds_letFormat {p : Prop} {x : String} (h : Finds False m o M env f L) (h' : Finds p m o M env g L') :
    Finds p m o M env (.letFormat f x g) fun s w v => ∃ u u' z, w = u ++ u' ∧ L s u z ∧ L' (.single x z s) u' v := by
  intro next d s s' c w rest v hc hs hz hi hd hv hx
  obtain ⟨u, u', z, rfl, h3, h4⟩ := hv
  rw [List.append_assoc] at hd
  rw [List.length_append, ← Nat.add_assoc] at hx ⊢
  cases hc with
  | letFormat hc1 hc2 =>
    exact found_letFormat (h _ _ _ _ _ _ _ _ hc1 hs hz hi hd h3 (fun h => h.elim))
      (h' _ _ _ _ ⟨c.input, c.offset + u.length⟩ u' rest v hc2 hs.single hz (inside_step hi hd) (drop_step hd) h4 hx)

theorem begins_compute {e : Expr} {next : Next} {b : UInt8} (h : Begins m b (.cat (.compute e) next)) : Begins m b next := by
  rcases h with h | ⟨_, h⟩
  · cases h
  · exact h

theorem goes_compute {e : Expr} {next : Next} {c : ReadCtxt} (h : Goes m next c) : Goes m (.cat (.compute e) next) c :=
  .cat fun n s hs => h n s (by simpa only [Format.step] using hs)

theorem goes_nil {next : Next} {c : ReadCtxt} (h : Goes m next c) : Goes m (.cat (.tuple []) next) c :=
  .cat fun n s hs => h n s (by simpa only [Format.step] using hs)

theorem finds_last {x : String} {e : Expr} (h : Finds True m o M env f L) :
    Finds True m o M env (.letFormat f x (.compute e)) fun s u v => ∃ z, L s u z ∧ Denotes e (.single x z s) v := by
  intro next d s s' c u rest v hc hs hz hi hd hv hx
  obtain ⟨z, h3, h4⟩ := hv
  obtain ⟨hr, hn, hg⟩ := hx trivial
  cases hc with
  | letFormat hc1 hc2 =>
    exact found_letFormat (h _ _ _ _ _ _ _ _ hc1 hs hz hi hd h3 fun _ => ⟨hr, fun b hb => hn b (begins_compute hb), goes_compute hg⟩)
      (plain_compute _ _ _ _ _ _ _ _ (.compute h4) hc2 hs.single)

theorem finds_slice {e : Expr} (h : Finds True m o M env f L) :
    Finds False m o M env (.slice e f) fun s u v => DenotesNat e s u.length ∧ L s u v := by
  intro next d s s' c u rest v hc hs hz hi hd hv hx
  have hle := inside_step hi hd
  cases hc with
  | slice hc =>
    have hw : (c.input.take (c.offset + u.length)).drop c.offset = u ++ [] := by
      rw [List.drop_take, Nat.add_sub_cancel_left, hd, List.take_left, List.append_nil]
    refine (h .empty _ s s' ⟨c.input.take (c.offset + u.length), c.offset⟩ u [] v hc hs (by simp only [List.length_take]; omega)
      (by simp only [List.length_take]; omega) hw hv.2 fun _ => ⟨rfl, fun _ h => h, .empty⟩).wrap (fun r => (r.1, _)) (fun n w h6 _ _ => ?_) rfl
    unfold Decoder.parse
    refine Outcome.bind_eq_ok.2 ⟨_, Outcome.ofPanicky_eq_ok.2 (evalUsize_of hs hv.1), Outcome.bind_eq_ok.2
      ⟨some (⟨c.input.take (c.offset + u.length), c.offset⟩, ⟨c.input, c.offset + u.length⟩), Outcome.ofPanicky_eq_ok.2 ?_, ?_⟩⟩
    · unfold ReadCtxt.splitAt
      rw [addUsize_ok (by omega)]
      simp only [if_pos hle]
    · exact Outcome.bind_eq_ok.2 ⟨_, h6, rfl⟩

theorem steps_pieces {d : Decoder} {next : Next} (hc : Compiles (.of m o M) f next d) (h : Finds False m o M env f L) {s : Scope Format}
    {s' : Scope Decoder} (hs : Scopes m o M s s') (hn : ∀ u v, L s u v → u ≠ []) {input : List UInt8} (hz : input.length < usizeCard)
    {u : List UInt8} {vs : List Value} (hp : Pieces (L s) u vs) : ∀ {q : Nat}, q ≤ input.length → input.drop q = u →
    Steps env d s' (fun c n => c.input = input ∧ c.offset ≤ input.length ∧ (n = 0 ↔ c.offset = input.length)) ⟨input, q⟩ vs ⟨input, q + u.length⟩ 0 := by
  induction hp with
  | nil =>
    intro q hq hd
    have := congrArg List.length hd
    rw [List.length_drop, List.length_nil] at this
    exact .nil ⟨rfl, hq, fun _ => show q = _ by omega, fun _ => rfl⟩
  | @cons u u' v vs hu _ ih =>
    intro q hq hd
    have hlen := congrArg List.length hd
    rw [List.length_drop, List.length_append] at hlen
    have hpos := List.length_pos_iff.2 (hn _ _ hu)
    rw [List.length_append, ← Nat.add_assoc]
    exact .cons (k := 0) (k' := 0) ⟨rfl, hq, fun h => by omega, fun h => by replace h : q = _ := h; omega⟩
      (h next d s s' ⟨input, q⟩ u u' v hc hs hz hq hd hu (fun h => h.elim))
      (ih (q := q + u.length) (by omega) (drop_step (c := ⟨input, q⟩) hd))

theorem finds_repeat (ho : o.ord.Valid) (ht : Takes m f) (hn : ∀ s u v, L s u v → u ≠ []) (h : Finds False m o M env f L) :
    Finds True m o M env (.repeat_ f) fun s u v => ∃ vs, Pieces (L s) u vs ∧ v = .seq (.strict vs) := by
  rintro next d s s' c u rest v hc hs hz hi hd ⟨vs, hp, rfl⟩ hx
  obtain ⟨rfl, hno, hg⟩ := hx trivial
  obtain ⟨inp, q⟩ := c
  dsimp only at *
  have hend := congrArg List.length hd
  rw [List.length_drop, List.append_nil] at hend
  cases hc with
  | @repeat_ _ _ d t _ hc hm =>
    have hst := steps_pieces hc h hs (hn s) hz hp hi (by rw [hd, List.append_nil])
    obtain ⟨N, acc, h1, h2, h3⟩ := hst.while_ (t := t) (fun c' n hj => by
      obtain ⟨inp', q'⟩ := c'
      obtain ⟨h3, h4, h5⟩ := hj
      dsimp only at h3 h4 h5
      subst h3
      by_cases hn0 : n = 0
      · rw [if_pos hn0]
        have he := h5.1 hn0
        refine select1 ho hm (i := 1) rfl (goes_nil ?_) ?_
        · rw [show q' = q + u.length by omega]; exact hg
        · intro b hb
          have : inp'[q']? = some b := hb
          rw [List.getElem?_eq_none (by omega)] at this
          cases this
      · rw [if_neg hn0]
        have hlt : q' < inp'.length := by
          rcases Nat.lt_or_ge q' inp'.length with h | h
          · exact h
          · exact absurd (h5.2 (by omega)) hn0
        have hb : At ⟨inp', q'⟩ (inp'[q']'hlt) := List.getElem?_eq_getElem hlt
        refine select1 (i := 0) (f := .tuple [f, .repeat_ f]) ho hm (c := ⟨inp', q'⟩) rfl (by
          intro n s hs
          cases n with
          | zero => simp [Next.step] at hs
          | succ n => exact .inr ⟨_, hb, takes_tuple ht n _ s _ (by simpa only [Next.step] using hs)⟩) ?_
        intro b _ j g hj hj0
        match j, hj0 with
        | 1, _ =>
          cases hj
          rintro (h | ⟨_, h⟩)
          · exact starts_nil h
          · exact hno b h
        | j + 2, _ => simp at hj) (.new ([], _)) rfl
    refine .mk (N := N) (w := acc.map fun r => (.seq (.strict r.1), r.2)) (fun n hn => ?_) (by simp only [WithErr.map, h2]; rfl) h3
    unfold Decoder.parse
    exact Outcome.bind_eq_ok.2 ⟨_, h1 n n hn hn, rfl⟩

theorem finds_item {p : Prop} (hM : ∀ level next k, ((level, next), k) ∈ M → ∃ it d, m.items[level]? = some it ∧ env.program[k]? = some d ∧
    Compiles (.of m o M) it.format next d) {l : Nat} (hi : m.items[l]? = some ⟨[], [], f⟩) (h : Finds p m o M env f L) :
    Finds p m o M env (.itemVar l [] []) fun _ u v => L (.multi [] .empty) u v := by
  intro next d s s' c u rest v hc hs hz hin hd hv hx
  cases hc with
  | @itemVar _ _ _ it' _ dep k h1 h2 h3 =>
    obtain ⟨it'', d, h4, h5, h6⟩ := hM _ _ _ h3
    rw [hi] at h4
    rw [show m.items[l]? = some it' from h1] at hi
    cases hi
    cases h4
    refine (h _ _ _ (.multi [] .empty) _ _ _ _ h6 (.multi .empty) hz hin hd hv fun hp => ⟨(hx hp).1, ?_, ?_⟩).wrap id (fun n w h6 _ _ => ?_) rfl
    · cases dep with
      | true => exact (hx hp).2.1
      | false => exact fun b h => h
    · cases dep with
      | true => exact (hx hp).2.2
      | false => exact .empty
    · unfold Decoder.parse
      exact Outcome.bind_eq_ok.2 ⟨_, rfl, Outcome.bind_eq_ok.2 ⟨_, rfl, Outcome.bind_eq_ok.2 ⟨_, Outcome.ofPanicky_eq_ok.2 (Compiler.unwrap_eq_ok.2 h5), h6⟩⟩⟩

end

section
variable {m : Module} {o : BuildOpts} {M : List ((Nat × Next) × Nat)} {env : Env}

theorem plain_u8 : Plain m o M env u8 := plain_hint plain_byte

theorem plain_tag : Plain m o M env anyTag := plain_tuple fun f hf => by
  rw [List.eq_of_mem_replicate hf]; exact plain_u8

theorem plain_word : Plain m o M env (word .b32 false) := plain_hint (plain_map (plain_tuple fun f hf => by
  rw [List.eq_of_mem_replicate hf]; exact plain_byte))

theorem plain_bytes (bs : List UInt8) : Plain m o M env (isBytes bs) := plain_tuple fun f hf => by
  obtain ⟨b, -, rfl⟩ := List.mem_map.1 hf; exact plain_byte

theorem finds_chunk {tag data : Format} {T D : List UInt8 → Value → Prop} (hT : Finds False m o M env tag fun _ u v => T u v)
    (hD : Finds True m o M env data fun _ u v => D u v) :
    Finds False m o M env (chunk tag data) fun _ w v => ∃ t size u tv dv, T t tv ∧ size.length = 4 ∧ D u dv ∧
      littleEnd size = u.length ∧ w = t ++ size ++ u ++ padding (littleEnd size) ∧
      v = .record [("tag", tv), ("length", lengthOf size), ("data", dv), ("pad", paddingValue (littleEnd size))] := by
  have hchain : chunk tag data = .hint (.letFormat tag "tag" (.letFormat (word .b32 false) "length"
      (.letFormat (.slice (.var "length") data) "data" (.letFormat (.maybe (isOdd (.var "length")) (isByte 0)) "pad"
        (.compute (.record [("tag", .var "tag"), ("length", .var "length"), ("data", .var "data"), ("pad", .var "pad")])))))) := rfl
  rw [hchain]
  have hall : ∀ (s : Scope Format) (a b c d : Value),
      Denotes (.record [("tag", .var "tag"), ("length", .var "length"), ("data", .var "data"), ("pad", .var "pad")])
        (.single "pad" d (.single "data" c (.single "length" b (.single "tag" a s))))
        (.record [("tag", a), ("length", b), ("data", c), ("pad", d)]) := fun _ _ _ _ _ => rfl
  refine (finds_hint (finds_letFormat hT (finds_letFormat (plain_word.finds (fixed_word .b32 false).reads)
    (finds_letFormat (finds_slice hD) (finds_letFormat ((plain_maybe plain_byte).finds (reads_maybe (exactly_byte 0).reads))
      (plain_compute.finds reads_compute)))))).mono fun s w v => ?_
  rintro ⟨t, size, u, tv, dv, ht, hs, hd, hn, rfl, rfl⟩
  refine ⟨t, _, tv, by simp only [List.append_assoc], ht, size, _, _, rfl, ⟨hs, rfl⟩, u, _, dv, rfl, ⟨(length_var _ _ _ _ hs).2 hn.symm, hd⟩,
    padding (littleEnd size), [], paddingValue (littleEnd size), (List.append_nil _).symm, ?_, rfl, hall ..⟩
  by_cases hodd : littleEnd size % 2 = 1
  · refine .inl ⟨(odd_var _ _ _ _ _ hs).2 (decide_eq_true hodd).symm, _, ⟨by rw [padding, if_pos hodd], rfl⟩, by rw [paddingValue, if_pos hodd]⟩
  · refine .inr ⟨(odd_var _ _ _ _ _ hs).2 (decide_eq_false hodd).symm, by rw [padding, if_neg hodd], by rw [paddingValue, if_neg hodd]⟩

variable (ho : o.ord.Valid)
  (hM : ∀ level next k, ((level, next), k) ∈ M → ∃ it d, m.items[level]? = some it ∧ env.program[k]? = some d ∧
    Compiles (.of m o M) it.format next d)
  {l : Nat} (h0 : m.items[l]? = some ⟨[], [], anyTag⟩) (h1 : m.items[l + 1]? = some ⟨[], [], anyChunk l⟩)
  (h2 : m.items[l + 2]? = some ⟨[], [], subchunks l⟩)

include ho hM h0

theorem finds_anyChunk : Finds False m o M env (anyChunk l) fun _ u v => ∃ c : Chunk, (c.Valid ∧ c.left = []) ∧ u = c.encode ∧ v = c.value := by
  have hop : Finds True m o M env (.repeat_ u8) fun _ u v => v = seqOf u :=
    (finds_repeat (L := fun _ u v => u.length = 1 ∧ v = .u8 (u.headD 0)) ho takes_u8 (fun s u v h => by rintro rfl; cases h.1) (plain_u8.finds fixed_u8.reads)).mono
      fun s u v hv => by
        subst hv
        refine ⟨u.map Value.u8, ?_, rfl⟩
        induction u with
        | nil => exact .nil
        | cons b u ih => exact .cons (u := [b]) ⟨rfl, rfl⟩ ih
  refine (finds_chunk (T := fun u v => u.length = 4 ∧ v = tupleOf u) (D := fun u v => v = seqOf u)
    (finds_item hM h0 (plain_tag.finds reads_tag)) hop).mono fun s u v => ?_
  rintro ⟨⟨t, size, d, _⟩, ⟨⟨ht, hs, hn⟩, rfl⟩, rfl, rfl⟩
  exact ⟨t, size, d, _, _, ⟨ht, rfl⟩, hs, rfl, hn, by simp [Chunk.encode], rfl⟩

include h1

theorem finds_subchunks : Finds True m o M env (subchunks l) fun _ u v => ∃ (form : List UInt8) (cs : List Chunk), form.length = 4 ∧
    (∀ c ∈ cs, c.Valid ∧ c.left = []) ∧ u = form ++ cs.flatMap Chunk.encode ∧
    v = .record [("tag", tupleOf form), ("chunks", .seq (.strict (cs.map Chunk.value)))] := by
  have hchain : subchunks l = .hint (.letFormat (.itemVar l [] []) "tag" (.letFormat (.repeat_ (.itemVar (l + 1) [] [])) "chunks"
    (.compute (.record [("tag", .var "tag"), ("chunks", .var "chunks")])))) := rfl
  rw [hchain]
  have hall : ∀ (s : Scope Format) (a b : Value), Denotes (.record [("tag", .var "tag"), ("chunks", .var "chunks")])
    (.single "chunks" b (.single "tag" a s)) (.record [("tag", a), ("chunks", b)]) := fun _ _ _ => rfl
  refine (finds_hint (finds_letFormat (finds_item hM h0 (plain_tag.finds reads_tag))
    (finds_last (finds_repeat ho (takes_item h1 (takes_chunk h0)) ?_ (finds_item hM h1 (finds_anyChunk ho hM h0)))))).mono fun s u v => ?_
  · rintro s u v ⟨c, ⟨⟨hc, _⟩, _⟩, rfl, _⟩ he
    have := congrArg List.length he
    simp only [Chunk.encode, List.length_append, hc, List.length_nil] at this
    omega
  · rintro ⟨form, cs, hf, hcs, rfl, rfl⟩
    exact ⟨form, _, _, rfl, ⟨hf, rfl⟩, _, ⟨_, pieces_made.2 ⟨cs, hcs, rfl, rfl⟩, rfl⟩, hall ..⟩

include h2

theorem finds_file : Finds False m o M env (chunk (isBytes [0x52, 0x49, 0x46, 0x46]) (.itemVar (l + 2) [] [])) fun _ u v =>
    ∃ f : File, f.Valid ∧ f.Whole ∧ u = f.encode ∧ v = f.value := by
  refine (finds_chunk (T := fun u v => u = magic ∧ v = tupleOf magic) ((plain_bytes _).finds (exactly_bytes magic).reads)
    (finds_item hM h2 (finds_subchunks ho hM h0 h1))).mono fun s u v => ?_
  rintro ⟨⟨size, form, cs, _⟩, ⟨hs, hf, hcs, hn⟩, ⟨rfl, hw⟩, rfl, rfl⟩
  exact ⟨_, size, _, _, _, ⟨rfl, rfl⟩, hs, ⟨form, cs, hf, fun c h => ⟨hcs c h, hw c h⟩, rfl, rfl⟩, hn, by simp [File.encode, File.body], rfl⟩

end

end Riff
end Doodle
