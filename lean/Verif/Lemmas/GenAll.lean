import Verif.Lemmas.GenMain
import Verif.Lemmas.Record
import Verif.Props.HuffmanDecode

/-! Generated decoders simulate the interpreter: one lemma for each group of decoders, and the induction. -/

namespace Doodle
namespace Gen

open Rt (Parser OpRes PErr ByteOffset Lens ViewStack bitStream bitStream_length bitStream_get
  gt_bytes gt_bits_bytes gt_bits addUsize_eq_ok tryIncrement_cases)

theorem FragmentAll.mem {q : Nat → Ctx} {k : Ctx} : ∀ {ds : List Decoder}, FragmentAll q k ds → ∀ d ∈ ds, Fragment q k d
  | _ :: _, h, d, hd => by
    rcases List.mem_cons.mp hd with rfl | hd
    · exact h.1
    · exact FragmentAll.mem h.2 d hd

theorem Agree.stuck {k : Ctx} {p : Parser} {α β : Type} {Q : α → β → Parser → Prop} {e : DecodeErr} {e' : PErr}
    : Agree k p Q (.err e) (.err e' p) := .err fun _ => ⟨e', p, rfl, fun _ => .refl p⟩

/-- a view expression -/
theorem view_agree {k : Ctx} {s : Scope Decoder} {g : Env} (h : SRel s g) (p : Parser) {v : ViewExpr} (hv : ViewOk v) :
    Agree k p (fun c w p' => p' = p ∧ ViewSim c w) (Decoder.evalView s v) (evalView g p v) := by
  obtain ⟨h1, h2⟩ := evalView_ok h p hv
  cases hr : Decoder.evalView s v with
  | panic => exact .panic
  | fuel => exact .fuel
  | err e => obtain ⟨e', h3⟩ := h2 e hr; rw [h3]; exact .stuck
  | ok c => obtain ⟨w, h3, h4⟩ := h1 c hr; rw [h3]; exact .here ⟨rfl, h4⟩

/-- a body that is run behind a context pushed on the stack, and left again -/
theorem close_sim {k : Ctx} {b b' : Bool} {p : Parser} {c : ReadCtxt} {l : Lens} {o : ByteOffset}
    {r : Outcome DecodeErr Parsed} {g : Res Value} (hl1 : l.restore = some p.offset) (hl2 : l.recover = none)
    (hs : Sim b' c p) (h : Agree k { p with offset := o, stack := l :: p.stack } (QV b) r g) :
    Agree k p (QV b') (r >>= fun w => .ok (w.map fun r => (r.1, c)))
      (g.bind fun v p => (Res.op p.closePeek).bind fun _ p => .ok v p) := by
  cases r with
  | panic => exact .panic
  | fuel => exact .fuel
  | err e =>
    refine .err fun hst => ?_
    obtain ⟨e', p', h1, h2⟩ := h.2 e rfl hst
    rw [h1]
    exact ⟨e', p', rfl, fun hq => (h2 hq).under hl2⟩
  | ok w =>
    obtain ⟨v, p', h1, h2, h3⟩ := h.1 w rfl
    have h4 := closePeek_back (p := p) (p1 := { p with offset := o, stack := l :: p.stack }) hl1 ⟨rfl, rfl, rfl⟩ rfl h3
    rw [h1]
    simp only [Res.bind, h4, Res.op]
    exact .here ⟨h2.1, hs⟩

section
variable {env : Doodle.Env} {q : Nat → Ctx} {n : Nat} (ih : SimAt env q n) {k : Ctx}
  {s : Scope Decoder} {g : Env} {c : ReadCtxt} {p : Parser}
  (hk : k.Sound) (hg : SRel s g) (hs : Sim k.bits c p) (hp : Holds k p)
include ih hk hg hs hp

theorem call_sim (hprog : ∀ m d, env.program[m]? = some d → Fragment q (q m) d) {m : Nat} {args : List (String × Expr)}
    {views : List (String × ViewExpr)} (hf : Fragment q k (.call m args views)) :
    Agree k p (QV k.bits) (Decoder.parse env (n + 1) (.call m args views) s c)
      (exec env.program (n + 1) (.call m args views) g p) := by
  simp only [Fragment] at hf
  obtain ⟨⟨c1, c2, c3, c4, c5, c6, c7⟩, ha, hv⟩ := hf
  simp only [Decoder.parse, exec]
  cases h1 : Decoder.evalArgs s args with
  | panic => exact .panic
  | fuel => exact .fuel
  | err e => exact absurd h1 evalArgs_noErr
  | ok es =>
    obtain ⟨es', h2, h3⟩ := evalArgs_ok hg ha h1
    rw [h2]
    simp only [Res.pure, Res.bind, Outcome.bind_ok]
    obtain ⟨v1, v2⟩ := evalViewArgs_ok hg p hv
    cases h4 : Decoder.evalViewArgs s views with
    | panic => exact .panic
    | fuel => exact .fuel
    | err e => obtain ⟨e', h5⟩ := v2 e h4; rw [h5]; exact .stuck
    | ok vs =>
      obtain ⟨vs', h5, h6⟩ := v1 vs h4
      rw [h5]
      simp only [Res.bind, Outcome.bind_ok]
      cases h7 : env.program[m]? with
      | none => exact .panic
      | some d =>
        simp only [Panicky.unwrap, Outcome.ofPanicky, Outcome.bind_ok]
        have h8 := ih (q m) d _ _ c p c1 (hprog m d h7) (h3.append h6).scope (by rw [c2]; exact hs)
          ⟨fun h => hp.main (c5 h), fun h => hp.whole (c6 h), fun h => hp.exact (c7 h)⟩
        rw [c2] at h8
        exact h8.covers c3 c4

omit ih hg in
theorem align_sim {m : Nat} (hf : Fragment q k (.align m)) :
    Agree k p (QV k.bits) (Decoder.parse env (n + 1) (.align m) s c) (exec env.program (n + 1) (.align m) g p) := by
  simp only [Fragment] at hf
  simp only [Decoder.parse, exec]
  by_cases hm : m = 0
  · rw [if_pos hm]; exact .panic
  rw [if_neg hm]
  have hmain : k.bits = false → p.startOffset = 0 := by
    intro hb; rw [hb] at hf; exact hp.main (by simpa using hf)
  unfold ReadCtxt.splitAt
  cases h1 : addUsize c.offset ((m - c.offset % m) % m) with
  | panic => exact .panic
  | ok e =>
    obtain ⟨rfl, h2⟩ := addUsize_eq_ok h1
    simp only
    by_cases hle : c.offset + (m - c.offset % m) % m ≤ c.input.length
    · rw [if_pos hle, skipAlign_eq hs hmain hm h2 (fun _ => hle)]
      simp only [Outcome.ofPanicky, Outcome.bind_ok, Parser.advanceBy, tryIncrement_ok hs hle, OpRes.bind, Res.op, Res.bind]
      exact .ok ⟨ERL.nil.tuple, sim_shift hs hle⟩ (Moved.after ⟨_, rfl, same_shift _ _⟩)
    · rw [if_neg hle]
      simp only [Outcome.ofPanicky, Outcome.bind_ok]
      refine .err fun hst => ?_
      cases hb : k.bits with
      | true => rw [hb, hst] at hf; cases hf
      | false =>
        rw [hb] at hs
        obtain ⟨e, he⟩ := tryIncrement_err hs (d := (m - c.offset % m) % m) (by omega) h2
        refine ⟨e, p, ?_, fun _ => .refl p⟩
        rw [skipAlign_eq hs (fun _ => hmain hb) hm h2 (fun h => nomatch h)]
        simp only [Parser.advanceBy, he, OpRes.bind, Res.op, Res.bind]

omit ih hg in
theorem byte_sim {bs : ByteSet} :
    Agree k p (QV k.bits) (Decoder.parse env (n + 1) (.byte bs) s c) (exec env.program (n + 1) (.byte bs) g p) := by
  simp only [Decoder.parse, exec]
  cases hr : c.readByte with
  | none =>
    refine .err fun hst => ?_
    obtain ⟨e, p', h1, h2⟩ := readByte_none hs hr (fun hb => hp.exact (hk hb hst))
    rw [h1]
    exact ⟨e, p', rfl, fun _ => h2.junk⟩
  | some xc =>
    obtain ⟨h1, h2, h3⟩ := readByte_some hs (x := xc.1) (c' := xc.2) hr
    rw [h3]
    simp only [Res.op, Res.bind]
    have hlt := (List.getElem?_eq_some_iff.mp h2).1
    have hmv : Moved p { p with offset := shift p.offset 1 } := ⟨_, rfl, same_shift _ _⟩
    by_cases hc : bs.contains xc.1 = true
    · rw [if_pos hc, if_pos hc]
      exact .ok ⟨⟨trivial, rfl⟩, by rw [h1]; exact sim_shift hs (by omega)⟩ hmv.after
    · rw [if_neg hc, if_neg hc]
      exact .err fun _ => ⟨_, _, rfl, fun _ => hmv.junk⟩

theorem branch_sim {tree : MatchTree} {ds : List Decoder} (hf : Fragment q k (.branch tree ds)) :
    Agree k p (QV k.bits) (Decoder.parse env (n + 1) (.branch tree ds) s c)
      (exec env.program (n + 1) (.branch tree ds) g p) := by
  simp only [Fragment] at hf
  obtain ⟨ht, hd⟩ := hf
  obtain ⟨g1, g2⟩ := matchTree_sim ht hs
  simp only [Decoder.parse, exec]
  cases hm : tree.matches c with
  | none =>
    refine .err fun hst => ?_
    obtain ⟨e, p', h1, h2⟩ := g2 hm (fun hb => hp.exact (hk hb hst))
    rw [h1]
    exact ⟨e, p', rfl, fun _ => h2⟩
  | some ix =>
    rw [g1 ix hm]
    simp only [Res.bind]
    cases hx : ds[ix]? with
    | none => exact .panic
    | some d =>
      simp only [Panicky.unwrap, Outcome.ofPanicky, Outcome.bind_ok]
      have h1 := ih k d s _ c p hk (hd.mem d (List.mem_of_getElem? hx))
        (hg.hidden (n := "tree_index") (w := .ofUsize ix) (by decide +kernel)) hs hp
      have h2 := h1.map (Q' := QV k.bits) (f := fun w => w.map fun r => (.branch ix r.1, r.2)) (h := fun v => v)
        (fun w v p' hw => ⟨⟨hw.1.1, by rw [hw.1.2]; rfl⟩, hw.2⟩)
      have hid : ∀ r : Res Value, (r.bind fun v p' => .ok v p') = r := by intro r; cases r <;> rfl
      rw [hid] at h2
      exact h2

theorem view_sim {v : ViewExpr} {d : Decoder} (hf : Fragment q k (.parseFromView v d)) :
    Agree k p (QV k.bits) (Decoder.parse env (n + 1) (.parseFromView v d) s c)
      (exec env.program (n + 1) (.parseFromView v d) g p) := by
  simp only [Fragment] at hf
  obtain ⟨hv, hd⟩ := hf
  simp only [Decoder.parse, exec]
  refine (view_agree hg p hv).bind fun cv w p' hw _ => ?_
  obtain ⟨rfl, h1, ⟨pre, h2, h3⟩, h4, h5⟩ := hw
  have hs' : Sim false cv (.ofView w.input w.offset) := by
    refine SimBytes.sim ⟨rfl, h4, h5⟩ ⟨0, w.input.length, rfl, rfl, Nat.zero_le _, Nat.le_refl _, h1, pre, h2, ?_⟩
    rw [h3]
    show _ = pre ++ w.input.take w.input.length
    rw [List.take_length]
  have hi := ih { k with bits := false, main := false, whole := true, exact := true } d s _ cv (.ofView w.input w.offset)
    (fun h => nomatch h) hd ((hg.hidden (n := "view_parser") (w := .phantom) (by decide +kernel)).hidden
      (n := "view_input") (w := .phantom) (by decide +kernel)) hs'
    ⟨(fun h => nomatch h), (fun _ => rfl), (fun _ m hm => by cases hm; rfl)⟩
  cases hr : Decoder.parse env n d s cv with
  | panic => exact .panic
  | fuel => exact .fuel
  | err e =>
    refine .err fun hst => ?_
    obtain ⟨e', p1, g1, _⟩ := hi.2 e hr hst
    rw [g1]
    exact ⟨e', p', rfl, fun _ => .refl p'⟩
  | ok r =>
    obtain ⟨u, p1, g1, g2, _⟩ := hi.1 r hr
    rw [g1]
    exact .here ⟨g2.1, hs⟩

theorem slice_sim {e : Expr} {d : Decoder} (hf : Fragment q k (.slice e d)) :
    Agree k p (QV k.bits) (Decoder.parse env (n + 1) (.slice e d) s c) (exec env.program (n + 1) (.slice e d) g p) := by
  simp only [Fragment] at hf
  obtain ⟨he, hb, hd⟩ := hf
  simp only [Decoder.parse, exec]
  refine (Agree.pure (evalUsize_ok hg he)).bind fun size size' p' hsz _ => ?_
  obtain ⟨rfl, rfl⟩ := hsz
  unfold ReadCtxt.splitAt
  cases h1 : addUsize c.offset size' with
  | panic => exact .panic
  | ok en =>
    obtain ⟨rfl, h2⟩ := addUsize_eq_ok h1
    simp only
    by_cases hle : c.offset + size' ≤ c.input.length
    · rw [if_pos hle]
      obtain ⟨h3, h4⟩ := startSlice_ok hs hle
      rw [h3]
      simp only [Outcome.ofPanicky, Outcome.bind_ok, Res.op, Res.bind]
      have hi := ih { k with whole := false, exact := k.bits } d s _ _ _ (fun hb _ => hb) hd
        (hg.hidden (n := "sz") (w := .ofUsize size') (by decide +kernel)) h4
        ⟨hp.main, (fun h => nomatch h), ?_⟩
      · cases hr : Decoder.parse env n d s { c with input := c.input.take (c.offset + size') } with
        | panic => exact .panic
        | fuel => exact .fuel
        | err e =>
          refine .err fun hst => ?_
          obtain ⟨e', p1, g1, g2⟩ := hi.2 e hr hst
          rw [g1]
          exact ⟨e', p1, rfl, fun hq => (g2 hq).under (o := p'.offset) rfl⟩
        | ok w =>
          obtain ⟨v, p1, g1, g2, g3⟩ := hi.1 w hr
          have h5 := endSlice_ok g3 g2.2 (same_shift _ _)
          rw [g1]
          simp only [Outcome.bind_ok, h5]
          exact .ok ⟨g2.1, sim_shift hs hle⟩ (Moved.after ⟨_, rfl, same_shift _ _⟩)
      · intro hx m hm
        have hx : k.bits = true := hx
        rw [hx] at hs
        obtain ⟨s2, l, e1, _⟩ := hs.toBits
        have : shift p'.offset size' = .bytes m := hm
        rw [e1] at this
        cases this
    · rw [if_neg hle]
      simp only [Outcome.ofPanicky, Outcome.bind_ok]
      refine .err fun hst => ?_
      cases hkb : k.bits with
      | true => rw [hb hkb] at hst; cases hst
      | false =>
        rw [hkb] at hs
        obtain ⟨e, he⟩ := startSlice_err hs (size := size') (by omega) h2
        rw [he]
        exact ⟨e, p', rfl, fun _ => .refl _⟩

theorem offset_sim {base off : Expr} {d : Decoder} (hf : Fragment q k (.withRelativeOffset base off d)) :
    Agree k p (QV k.bits) (Decoder.parse env (n + 1) (.withRelativeOffset base off d) s c)
      (exec env.program (n + 1) (.withRelativeOffset base off d) g p) := by
  simp only [Fragment] at hf
  obtain ⟨hb, hm, hw, he1, he2, hw1, hw2, hd⟩ := hf
  have hs0 := hs
  rw [hb] at hs0
  simp only [Decoder.parse, exec]
  cases h1 : Decoder.evalUsize base s with
  | panic => exact .panic
  | ok b =>
  cases h2 : Decoder.evalUsize off s with
  | panic => exact .panic
  | ok o =>
  obtain ⟨v1, h3, h4⟩ := Panicky.bind_eq_ok.mp h1
  obtain ⟨v2, h5, h6⟩ := Panicky.bind_eq_ok.mp h2
  obtain ⟨x1, rfl⟩ := wide_val hw1 h3
  obtain ⟨x2, rfl⟩ := wide_val hw2 h5
  cases h4; cases h6
  obtain ⟨w1, h7, h8⟩ := evalValue_ok hg he1 _ h3
  obtain ⟨w2, h9, h10⟩ := evalValue_ok hg he2 _ h5
  rw [h7, h9, h8.2, h10.2]
  simp only [Outcome.ofPanicky, Outcome.bind_ok, Res.pure, Res.bind, erase]
  cases h11 : addUsize x1.val x2.val with
  | panic => exact .panic
  | ok t =>
    obtain ⟨rfl, h12⟩ := addUsize_eq_ok h11
    have h13 : Value.arith .add (.num (.fixed .b64) x1) (.num (.fixed .b64) x2) =
        .ok (.num (.fixed .b64) ⟨x1.val + x2.val, h12⟩) := by
      show (if UKind.fixed .b64 = .fixed .b64 then Value.mkNum (.fixed .b64) (x1.val + x2.val) else .panic) = _
      rw [if_pos rfl]
      unfold Value.mkNum
      exact dif_pos h12
    rw [h13]
    simp only [Outcome.bind_ok, Value.unwrapUsize, ReadCtxt.seekTo]
    obtain ⟨a1, a2⟩ := advance_sim hs0 (hp.main hm) (hp.whole hw) (x1.val + x2.val) h12
    by_cases hle : x1.val + x2.val ≤ c.input.length
    · rw [if_pos hle]
      obtain ⟨adv, l, p1, b1, b2, b3, b4, b5, b6⟩ := a1 hle
      rw [b1]
      simp only [Res.op, Res.bind]
      have hb0 := hs0.1
      have hi := ih k d s (.single "_is_advance" (.bool adv) (.single "tgt_offset"
          (.num (.fixed .b64) ⟨x1.val + x2.val, h12⟩) g)) { c with offset := x1.val + x2.val } p1 hk hd
        ((hg.hidden (by decide +kernel)).hidden (by decide +kernel))
        (by rw [hb]; exact b2) ⟨?_, ?_, ?_⟩
      · rw [b3] at hi ⊢
        exact close_sim b4 b5 hs hi
      · intro _; rw [b3]; exact hp.main hm
      · intro _; rw [b3]; exact b6
      · intro _ m hlim
        rw [b3] at hlim ⊢
        simp only [Parser.currentLimit, b6, Option.getD_none, hb0.max] at hlim
        cases hlim; rfl
    · rw [if_neg hle]
      obtain ⟨e, b1⟩ := a2 (by omega)
      rw [b1]
      exact .err fun _ => ⟨e, _, rfl, fun _ => Junk.under (l := .peek p.offset) rfl (o := p.offset) (.refl _)⟩

omit ih hk hp in
theorem capture_sim {v : ViewExpr} {e : Expr} (hf : Fragment q k (.captureBytes v e)) :
    Agree k p (QV k.bits) (Decoder.parse env (n + 1) (.captureBytes v e) s c)
      (exec env.program (n + 1) (.captureBytes v e) g p) := by
  simp only [Fragment] at hf
  obtain ⟨hst, hv, he⟩ := hf
  have hno : ∀ {α β : Type} {Q : α → β → Parser → Prop} {er g}, Agree k p Q (.err er) g :=
    .err fun h => by rw [hst] at h; cases h
  simp only [Decoder.parse, exec]
  cases h1 : Decoder.evalUsize e s with
  | panic => exact .panic
  | ok m =>
    obtain ⟨m', h2, h2'⟩ := evalUsize_ok hg he m h1
    subst h2'
    rw [h2]
    simp only [Outcome.ofPanicky, Outcome.bind_ok]
    refine (view_agree hg p hv).bind fun cv w p' hw _ => ?_
    obtain ⟨rfl, hw⟩ := hw
    cases h3 : Decoder.captureLoop m' cv [] with
    | panic => exact .panic
    | fuel => exact .fuel
    | err e => exact hno
    | ok vs =>
      obtain ⟨h4, h5⟩ := capture_ok m' cv [] vs h3
      rw [hw.rest] at h4 h5
      simp only [Res.pure, Res.bind, readLen, if_pos h4, Outcome.bind_ok, h5, List.nil_append]
      exact .here ⟨erlNums Value.u8 (fun x => ⟨_, _, rfl⟩) _, hs⟩

omit ih hk hp in
theorem array_sim {v : ViewExpr} {e : Expr} {kind : BaseKind} (hf : Fragment q k (.readArray v e kind)) :
    Agree k p (QV k.bits) (Decoder.parse env (n + 1) (.readArray v e kind) s c)
      (exec env.program (n + 1) (.readArray v e kind) g p) := by
  simp only [Fragment] at hf
  obtain ⟨hkind, hv, he⟩ := hf
  simp only [Decoder.parse, exec]
  cases h1 : Decoder.evalUsize e s with
  | panic => exact .panic
  | ok m =>
    obtain ⟨m', h2, h2'⟩ := evalUsize_ok hg he m h1
    subst h2'
    rw [h2]
    simp only [Outcome.ofPanicky, Outcome.bind_ok]
    refine (view_agree hg p hv).bind fun cv w p' hw _ => ?_
    obtain ⟨rfl, hw⟩ := hw
    obtain ⟨r1, r2⟩ := readArray_sim hkind m' cv []
    rw [hw.rest] at r1 r2
    have hno : ¬ (kind.be = false ∧ kind.width ≠ .b8) := by
      rintro ⟨x1, x2⟩
      rcases hkind with x3 | x3
      · rw [x1] at x3; cases x3
      · exact x2 x3
    simp only [Res.pure, Res.bind, readArray, if_neg hno]
    cases h3 : Decoder.readArrayLoop kind m' cv [] with
    | panic => exact .panic
    | fuel => exact .fuel
    | err er =>
      rw [if_neg (by have := r2 er h3; omega)]
      exact .stuck
    | ok vs =>
      obtain ⟨h4, h5⟩ := r1 vs h3
      rw [if_pos h4, h5]
      exact .here ⟨erlNums (arrayElem kind.width w.input) (fun x => ⟨_, _, rfl⟩) _, hs⟩

omit ih in
theorem leaf_sim : ∀ {d : Decoder}, Fragment q k d →
    (d = .pos ∨ d = .skipRemainder ∨ d = .endOfInput) →
    Agree k p (QV k.bits) (Decoder.parse env (n + 1) d s c) (exec env.program (n + 1) d g p) := by
  rintro d hf (rfl | rfl | rfl)
  · simp only [Fragment] at hf
    simp only [Decoder.parse, exec]
    have hs0 := hs
    rw [hf.1] at hs0
    obtain ⟨n, m, h1, h2, h3, h4, h5, pre, h6, h7⟩ := hs0.toBytes
    have h8 : n = c.offset := by rw [h5, hp.main hf.2]; omega
    simp only [Parser.getOffsetU64, h1, Res.pure, Res.bind, h8]
    exact .here ⟨⟨trivial, rfl⟩, hs⟩
  · simp only [Fragment] at hf
    simp only [Decoder.parse, exec]
    have hs0 := hs
    rw [hf] at hs0
    obtain ⟨n, m, h1, h2, h3, h4, h5, pre, h6, h7⟩ := hs0.toBytes
    refine .ok ⟨ERL.nil.tuple, ?_⟩ (Moved.after ⟨_, rfl, by rw [h1, h2]; trivial⟩)
    rw [hf]
    refine SimBytes.sim ⟨hs0.1.max, hs0.1.bits, hs0.1.bytes⟩ ⟨m, m, h2, h2, Nat.le_refl _, h4, ?_, pre, h6, h7⟩
    show c.input.length = p.startOffset + m
    rw [h7, List.length_append, h6, List.length_take]; omega
  · simp only [Decoder.parse, exec, Parser.finish, remaining_ok hs, OpRes.lift, OpRes.bind]
    have hle := (input_length hs).1
    cases hr : c.readByte with
    | none =>
      have := (readByte_iff c).mp hr
      rw [if_pos (by omega)]
      exact .here ⟨ERL.nil.tuple, hs⟩
    | some xc =>
      have : ¬ c.input.length ≤ c.offset := fun h => by rw [(readByte_iff c).mpr h] at hr; cases hr
      rw [if_neg (by omega)]
      exact .stuck

theorem letView_sim {name : String} {d : Decoder} (hf : Fragment q k (.letView name d)) :
    Agree k p (QV k.bits) (Decoder.parse env (n + 1) (.letView name d) s c)
      (exec env.program (n + 1) (.letView name d) g p) := by
  simp only [Fragment] at hf
  obtain ⟨hb, hw, hd⟩ := hf
  simp only [Decoder.parse, exec]
  have hs0 := hs
  rw [hb] at hs0
  have hbase := hs0.1
  obtain ⟨o, m, h1, h2, h3, h4, h5, pre, h6, h7⟩ := hs0.toBytes
  have hm : m = p.buffer.length := by
    simp only [Parser.currentLimit, hp.whole hw, Option.getD_none, hbase.max] at h2; cases h2; rfl
  simp only [Parser.view, h1, if_neg (by omega : ¬ p.buffer.length < o), Res.pure, Res.bind]
  have hbits := hbase.bits
  have hbytes := hbase.bytes
  refine ih k d _ _ c p hk hd (hg.view ?_) hs hp
  refine ⟨h5, ⟨pre ++ p.buffer.take o, ?_, ?_⟩, ?_, ?_⟩
  · show _ = p.startOffset + o
    rw [List.length_append, h6, List.length_take]; omega
  · rw [h7, hm, List.take_length, List.append_assoc, List.take_append_drop]
  · simp only [List.length_drop]; omega
  · simp only [List.length_drop]; omega

end

/-! ### Huffman codes -/

theorem shift_shift (o : ByteOffset) (a b : Nat) : shift (shift o a) b = shift o (a + b) := by
  cases o <;> simp only [shift, Nat.add_assoc]

/-- what is read in bits is a bit -/
theorem bit_read {c c' : ReadCtxt} {p : Parser} (hs : Sim true c p) {x : UInt8} (hr : c.readByte = some (x, c')) :
    x = 0 ∨ x = 1 := by
  obtain ⟨h1, h2, _⟩ := readByte_some hs hr
  obtain ⟨s, l, _, _, _, h3, _⟩ := hs.toBits
  have hm : x ∈ bitStream p.buffer := by
    have h4 : x ∈ c.input := List.mem_of_getElem? h2
    rw [h3] at h4
    exact List.mem_of_mem_drop (List.mem_of_mem_take h4)
  unfold bitStream at hm
  obtain ⟨b, _, hb⟩ := List.mem_flatMap.1 hm
  obtain ⟨i, _, rfl⟩ := List.mem_map.1 hb
  have : b.toNat / 2 ^ i % 2 < 2 := Nat.mod_lt _ (by omega)
  rcases (by omega : b.toNat / 2 ^ i % 2 = 0 ∨ b.toNat / 2 ^ i % 2 = 1) with h | h
  · rw [h]; exact .inl rfl
  · rw [h]; exact .inr rfl

/-- one symbol -/
theorem huffmanOne_sim {b : Bool} : ∀ (t : Huffman.Node) {c : ReadCtxt} {p : Parser}, Sim b c p →
    (∀ n rest, t.parseOne (c.input.drop c.offset) = .ok n rest → ∃ d, c.offset + d ≤ c.input.length ∧
      huffmanOne t p = .ok n { p with offset := shift p.offset d } ∧ c.input.drop (c.offset + d) = rest) ∧
    ((∀ n rest, t.parseOne (c.input.drop c.offset) ≠ .ok n rest) → b = true → Exact b p →
      ∃ e p', huffmanOne t p = .err e p' ∧ Moved p p')
  | .leaf v, c, p, hs => by
    refine ⟨fun n rest h => ?_, fun h => absurd (by unfold Huffman.Node.parseOne; rfl) (h v (c.input.drop c.offset))⟩
    unfold Huffman.Node.parseOne at h
    cases h
    refine ⟨0, (input_length hs).1, ?_, rfl⟩
    have h0 : shift p.offset 0 = p.offset := by cases p.offset <;> rfl
    simp only [huffmanOne, h0]
  | .empty, c, p, hs => by
    cases hr : c.readByte with
    | none =>
      rw [rest_nil hr]
      refine ⟨fun n rest h => (by simp only [Huffman.Node.parseOne] at h; cases h), fun _ _ hx => ?_⟩
      obtain ⟨e, p', h4, h5⟩ := readByte_none hs hr hx
      simp only [huffmanOne, h4]; exact ⟨e, p', rfl, h5⟩
    | some xc =>
      obtain ⟨x, c'⟩ := xc
      obtain ⟨h4, h5, h6⟩ := readByte_some hs hr
      rw [readByte_rest hr]
      refine ⟨fun n rest h => (by simp only [Huffman.Node.parseOne] at h; cases h), fun _ _ _ => ?_⟩
      simp only [huffmanOne, h6]
      exact ⟨_, _, rfl, _, rfl, same_shift _ _⟩
  | .branch c0 c1, c, p, hs => by
    cases hr : c.readByte with
    | none =>
      rw [rest_nil hr]
      refine ⟨fun n rest h => (by simp only [Huffman.Node.parseOne] at h; cases h), fun _ _ hx => ?_⟩
      obtain ⟨e, p', h4, h5⟩ := readByte_none hs hr hx
      simp only [huffmanOne, h4]; exact ⟨e, p', rfl, h5⟩
    | some xc =>
      obtain ⟨x, c'⟩ := xc
      obtain ⟨h4, h5, h6⟩ := readByte_some hs hr
      have hlt : c.offset < c.input.length := (List.getElem?_eq_some_iff.mp h5).1
      have hs' := sim_shift hs (d := 1) (by omega)
      rw [← h4] at hs'
      have hmv : Moved p { p with offset := shift p.offset 1 } := ⟨_, rfl, same_shift _ _⟩
      have sub : ∀ (t : Huffman.Node), (∀ {c : ReadCtxt} {p : Parser}, Sim b c p →
          (∀ n rest, t.parseOne (c.input.drop c.offset) = .ok n rest → ∃ d, c.offset + d ≤ c.input.length ∧
            huffmanOne t p = .ok n { p with offset := shift p.offset d } ∧ c.input.drop (c.offset + d) = rest) ∧
          ((∀ n rest, t.parseOne (c.input.drop c.offset) ≠ .ok n rest) → b = true → Exact b p →
            ∃ e p', huffmanOne t p = .err e p' ∧ Moved p p')) →
          (∀ n rest, t.parseOne (c'.input.drop c'.offset) = .ok n rest → ∃ d, c.offset + d ≤ c.input.length ∧
            huffmanOne t { p with offset := shift p.offset 1 } = .ok n { p with offset := shift p.offset d } ∧
            c.input.drop (c.offset + d) = rest) ∧
          ((∀ n rest, t.parseOne (c'.input.drop c'.offset) ≠ .ok n rest) → b = true → Exact b p →
            ∃ e p', huffmanOne t { p with offset := shift p.offset 1 } = .err e p' ∧ Moved p p') := by
        intro t ih
        obtain ⟨g1, g2⟩ := ih hs'
        refine ⟨fun n rest hn => ?_, fun hn hb hx => ?_⟩
        · obtain ⟨d, h7, h8, h9⟩ := g1 n rest hn
          rw [h4] at h7 h9
          refine ⟨1 + d, by simp only at h7; omega, ?_, by simp only at h9; rw [← h9, Nat.add_assoc]⟩
          rw [h8, shift_shift]
        · obtain ⟨e, p', h7, h8⟩ := g2 hn hb hx
          exact ⟨e, p', h7, hmv.trans h8⟩
      rw [readByte_rest hr]
      simp only [huffmanOne, h6, Res.op, Res.bind, Huffman.Node.parseOne]
      by_cases h0 : x = 0
      · rw [if_pos h0, if_pos h0]
        exact sub c0 (huffmanOne_sim c0)
      · rw [if_neg h0, if_neg h0]
        by_cases h1 : x = 1
        · rw [if_pos h1, if_pos h1]
          exact sub c1 (huffmanOne_sim c1)
        · rw [if_neg h1, if_neg h1]
          refine ⟨(fun _ _ h => nomatch h), fun _ hb => ?_⟩
          subst hb
          rcases bit_read hs hr with h | h
          · exact absurd h h0
          · exact absurd h h1

theorem apply_sim {env : Doodle.Env} {k : Ctx} {n : Nat} {s : Scope Decoder} {g : Env} {c : ReadCtxt} {p : Parser}
    (hk : k.Sound) (hg : SRel s g) (hs : Sim k.bits c p) (hp : Holds k p) {name : String}
    (hf : k.bits = true ∨ k.strict = false) :
    Agree k p (QV k.bits) (Decoder.parse env (n + 1) (.apply name) s c) (exec env.program (n + 1) (.apply name) g p) := by
  simp only [Decoder.parse, exec]
  obtain ⟨h2, h3⟩ | ⟨d, f, h2, h3, h4⟩ := (hg.decoders name).both
  · rw [h2]; exact .panic
  · rw [h2, h3]
    simp only [Panicky.unwrap, Outcome.ofPanicky, Outcome.bind_ok, Res.pure, Res.bind]
    obtain ⟨t, rfl, hd⟩ := h4
    obtain ⟨g1, g2⟩ := huffmanOne_sim t hs
    obtain ⟨d1, d2⟩ := hd env s c (n + 4) (by omega)
    have hmono : ∀ r, Decoder.parse env n d s c = r → r ≠ .fuel → Decoder.parse env (n + 4) d s c = r :=
      fun r h hr => Record.parse_mono h hr (by omega)
    by_cases hok : ∃ m rest, t.parseOne (c.input.drop c.offset) = .ok m rest
    · obtain ⟨m, rest, hm⟩ := hok
      obtain ⟨i, v, off, e1, e2, e3⟩ := d1 m rest hm
      obtain ⟨dd, e4, e5, e6⟩ := g1 m rest hm
      have hoff : off = c.offset + dd := by
        have hl := congrArg List.length (e3.trans e6.symm)
        simp only [List.length_drop] at hl
        omega
      refine ⟨fun w hw => ?_, fun e he => ?_⟩
      · have := hmono _ hw (fun h => nomatch h)
        rw [e1] at this
        cases this
        refine ⟨.num (.fixed .b16) (Fin.ofNat _ m), { p with offset := shift p.offset dd }, by simp only [callClosure, e5, Res.bind],
          ⟨⟨trivial, rfl⟩, ?_⟩, ?_⟩
        · rw [hoff]; exact sim_shift hs e4
        · exact Moved.after ⟨_, rfl, same_shift _ _⟩
      · have := hmono _ he (fun h => nomatch h)
        rw [e1] at this
        cases this
    · have hno : ∀ m rest, t.parseOne (c.input.drop c.offset) ≠ .ok m rest := fun m rest h => hok ⟨m, rest, h⟩
      obtain ⟨e0, he0⟩ := d2 hno
      refine ⟨fun w hw => ?_, fun e he hst => ?_⟩
      · have := hmono _ hw (fun h => nomatch h)
        rw [he0] at this
        cases this
      · rcases hf with hb | hf
        · obtain ⟨e', p', h7, h8⟩ := g2 hno hb (fun _ => hp.exact (hk hb hst))
          exact ⟨e', p', by simp only [callClosure, h7, Res.bind], fun _ => h8.junk⟩
        · rw [hf] at hst; cases hst

theorem dynamic_sim {env : Doodle.Env} (hc : Faithful env) {q : Nat → Ctx} {k : Ctx} {n : Nat} (ih : SimAt env q n)
    {s : Scope Decoder} {g : Env} {c : ReadCtxt} {p : Parser}
    (hk : k.Sound) (hg : SRel s g) (hs : Sim k.bits c p) (hp : Holds k p) {name : String} {l : Expr} {v : Option Expr}
    {d : Decoder} (hl : ExprOk l) (hv : ∀ e, v = some e → ExprOk e) (hh : HuffmanOk l v) (hd : Fragment q k d) :
    Agree k p (QV k.bits) (Decoder.parse env (n + 1) (.dynamic name l v d) s c)
      (exec env.program (n + 1) (.dynamic name l v d) g p) := by
  simp only [Decoder.parse, exec]
  have hev : PLe (fun a b => b = a) (Decoder.evalHuffman s l v) (Decoder.evalHuffman g l v) := by
    intro a ha
    unfold Decoder.evalHuffman at ha
    obtain ⟨x, h1, ha⟩ := Panicky.bind_eq_ok.mp ha
    obtain ⟨ls, h2, ha⟩ := Panicky.bind_eq_ok.mp ha
    obtain ⟨ls', h3, rfl⟩ := huffmanTable_ok hg hl ls (Panicky.bind_eq_ok.mpr ⟨x, h1, h2⟩)
    obtain ⟨x', h4, h5⟩ := Panicky.bind_eq_ok.mp h3
    refine ⟨a, ?_, rfl⟩
    unfold Decoder.evalHuffman
    refine Panicky.bind_eq_ok.mpr ⟨x', h4, Panicky.bind_eq_ok.mpr ⟨_, h5, ?_⟩⟩
    cases v with
    | none => exact ha
    | some e =>
      obtain ⟨y, h6, ha⟩ := Panicky.bind_eq_ok.mp ha
      obtain ⟨vs, h7, ha⟩ := Panicky.bind_eq_ok.mp ha
      obtain ⟨vs', h8, rfl⟩ := huffmanTable_ok hg (hv e rfl) vs (Panicky.bind_eq_ok.mpr ⟨y, h6, h7⟩)
      obtain ⟨y', h9, h10⟩ := Panicky.bind_eq_ok.mp h8
      exact Panicky.bind_eq_ok.mpr ⟨y', h9, Panicky.bind_eq_ok.mpr ⟨_, h10, ha⟩⟩
  cases h1 : Decoder.evalHuffman s l v with
  | panic => exact .panic
  | ok lv =>
    obtain ⟨lv', h2, rfl⟩ := hev lv h1
    rw [h2]
    simp only [Outcome.ofPanicky, Outcome.bind_ok, Res.pure, Res.bind]
    have h3 : Decoder.evalHuffman (eraseScope s) l v = .ok (lv'.1, lv'.2) := by
      rw [← h2]
      unfold Decoder.evalHuffman
      rw [eval_eq hg hl]
      cases v with
      | none => rfl
      | some e => simp only [eval_eq hg (hv e rfl)]
    obtain ⟨L, t, h4, h5, h6, h7, h8⟩ := hh _ _ _ h3
    cases h9 : Decoder.huffmanFormat lv'.1 lv'.2 with
    | panic => exact .panic
    | ok f =>
      simp only [Outcome.bind_ok]
      cases h10 : env.compileOne f with
      | panic => exact .panic
      | fuel => exact .fuel
      | err e => cases e
      | ok od =>
        cases od with
        | none => exact .panic
        | some dyn =>
          obtain ⟨_, o, ho, hfuel, h11⟩ := hc f dyn h10
          obtain ⟨d', h12, h13⟩ := Huffman.decode_form o ho hfuel _ _ L h4 ⟨h5, h6, h7⟩ t h8 f h9
          rw [h11] at h12
          cases h12
          rw [h8]
          refine ih k d _ _ c p hk hd (hg.decoder ⟨t, rfl, fun env' sc c' j hj => ?_⟩) hs hp
          obtain ⟨e1, e2⟩ := h13 env' sc c' j hj
          refine ⟨fun m rest hm => ?_, e2⟩
          obtain ⟨i, x, off, f1, _, f2, f3⟩ := e1 m rest hm
          exact ⟨i, x, off, f1, f2, f3⟩

/-! ### the first byte -/

theorem StartsAll.get {B : UInt8 → Prop} : ∀ {ds : List Decoder}, StartsAll B ds → ∀ {i : Nat} {d : Decoder}, ds[i]? = some d →
    StartsIn B d
  | _ :: _, h, 0, _, hd => by cases hd; exact h.1
  | _ :: ds, h, i + 1, _, hd => StartsAll.get h.2 (i := i) (by simpa using hd)

theorem parallel_first {P : Decoder → Outcome DecodeErr Parsed} {o : Nat} {w : Parsed} : ∀ {ds : List Decoder} {i : Nat},
    Decoder.parallelLoop P o i ds = .ok w → ∃ d ∈ ds, ∃ w', P d = .ok w'
  | [], _, h => by simp only [Decoder.parallelLoop] at h; cases h
  | d :: ds, i, h => by
    simp only [Decoder.parallelLoop] at h
    cases hP : P d with
    | ok w' => exact ⟨d, List.mem_cons_self, w', hP⟩
    | err e =>
      rw [hP] at h
      obtain ⟨d', hd', h'⟩ := parallel_first h
      exact ⟨d', List.mem_cons_of_mem _ hd', h'⟩
    | panic => rw [hP] at h; cases h
    | fuel => rw [hP] at h; cases h

theorem StartsAll.mem {B : UInt8 → Prop} : ∀ {ds : List Decoder}, StartsAll B ds → ∀ d ∈ ds, StartsIn B d
  | _ :: _, h, _, hd => by
    cases hd with
    | head => exact h.1
    | tail _ hd => exact StartsAll.mem h.2 _ hd

theorem starts_read {env : Doodle.Env} {B : UInt8 → Prop} : ∀ (n : Nat) (d : Decoder) {s : Scope Decoder} {c : ReadCtxt} {w : Parsed},
    StartsIn B d → Decoder.parse env n d s c = .ok w → ∃ x c', c.readByte = some (x, c') ∧ B x
  | 0, _, _, _, _, _, h => by cases h
  | n + 1, d, s, c, w, hd, h => by
    have fold : ∀ {ds : List Decoder} {acc : Decoder.Acc} {a : Decoder.Acc}, StartsHead B ds →
        Decoder.foldItems (fun d c => Decoder.parse env n d s c) ds acc = .ok a →
        ∃ x c', acc.value.2.readByte = some (x, c') ∧ B x := by
      intro ds acc a hds h
      cases ds with
      | nil => cases hds
      | cons d ds =>
        simp only [Decoder.foldItems] at h
        obtain ⟨w', h1, _⟩ := Outcome.bind_eq_ok.1 h
        exact starts_read n d hds h1
    cases d with
    | fail => simp only [Decoder.parse] at h; cases h
    | byte bs =>
      simp only [StartsIn] at hd
      simp only [Decoder.parse] at h
      cases hr : c.readByte with
      | none => rw [hr] at h; cases h
      | some xc =>
        rw [hr] at h
        by_cases hb : bs.contains xc.1 = true
        · exact ⟨xc.1, xc.2, rfl, hd _ hb⟩
        · simp only [if_neg hb] at h; cases h
    | variant l d =>
      simp only [StartsIn] at hd
      simp only [Decoder.parse] at h
      obtain ⟨w', h1, _⟩ := Outcome.bind_eq_ok.1 h
      exact starts_read n d hd h1
    | branch tree ds =>
      simp only [StartsIn] at hd
      simp only [Decoder.parse] at h
      cases hm : tree.matches c with
      | none => rw [hm] at h; cases h
      | some i =>
        rw [hm] at h
        obtain ⟨d, h1, h⟩ := Outcome.bind_eq_ok.1 h
        obtain ⟨w', h2, _⟩ := Outcome.bind_eq_ok.1 h
        have h3 : ds[i]? = some d := by
          cases hg : ds[i]? with
          | none => rw [hg] at h1; cases h1
          | some d' => rw [hg] at h1; cases h1; rfl
        exact starts_read n d (hd.get h3) h2
    | parallel ds =>
      simp only [StartsIn] at hd
      simp only [Decoder.parse] at h
      obtain ⟨d, hm, w', h1⟩ := parallel_first h
      exact starts_read n d (hd.mem d hm) h1
    | tuple ds =>
      simp only [StartsIn] at hd
      simp only [Decoder.parse] at h
      obtain ⟨w', h1, _⟩ := Outcome.bind_eq_ok.1 h
      exact fold hd h1
    | sequence ds =>
      simp only [StartsIn] at hd
      simp only [Decoder.parse] at h
      obtain ⟨w', h1, _⟩ := Outcome.bind_eq_ok.1 h
      exact fold hd h1
    | letFormat d name d' =>
      simp only [StartsIn] at hd
      simp only [Decoder.parse] at h
      obtain ⟨w', h1, _⟩ := Outcome.bind_eq_ok.1 h
      exact starts_read n d hd h1
    | monadSeq d d' =>
      simp only [StartsIn] at hd
      simp only [Decoder.parse] at h
      obtain ⟨w', h1, _⟩ := Outcome.bind_eq_ok.1 h
      exact starts_read n d hd h1
    | map d e =>
      simp only [StartsIn] at hd
      simp only [Decoder.parse] at h
      obtain ⟨w', h1, _⟩ := Outcome.bind_eq_ok.1 h
      exact starts_read n d hd h1
    | where_ d e b =>
      simp only [StartsIn] at hd
      simp only [Decoder.parse] at h
      obtain ⟨w', h1, _⟩ := Outcome.bind_eq_ok.1 h
      exact starts_read n d hd h1
    | let_ name e d =>
      simp only [StartsIn] at hd
      simp only [Decoder.parse] at h
      obtain ⟨v, _, h1⟩ := Outcome.bind_eq_ok.1 h
      exact starts_read n d hd h1
    | letView name d =>
      simp only [StartsIn] at hd
      simp only [Decoder.parse] at h
      exact starts_read n d hd h
    | liftedSome d =>
      simp only [StartsIn] at hd
      simp only [Decoder.parse] at h
      obtain ⟨w', h1, _⟩ := Outcome.bind_eq_ok.1 h
      exact starts_read n d hd h1
    | _ => cases hd

/-! ### the induction -/

theorem simAt {env : Doodle.Env} (hc : Faithful env) {q : Nat → Ctx} (hprog : ∀ m d, env.program[m]? = some d → Fragment q (q m) d) :
    ∀ n, SimAt env q n
  | 0 => fun _ _ _ _ _ _ _ _ _ _ _ => .fuel
  | n + 1 => by
    have ih := simAt hc hprog n
    intro k d s g c p hk hf hg hs hp
    have sub : ∀ {d' : Decoder}, Fragment q k d' → ∀ {s' g'}, SRel s' g' → ∀ c p, Sim k.bits c p → Holds k p →
        Agree k p (QV k.bits) (Decoder.parse env n d' s' c) (exec env.program n d' g' p) :=
      fun hf' _ _ hg' c p hs hp => ih k _ _ _ c p hk hf' hg' hs hp
    have start : QA k.bits (WithErr.new ([], c)) [] p := ⟨.nil, hs⟩
    cases d with
    | call m args views => exact call_sim ih hk hg hs hp hprog hf
    | phantom => exact .here ⟨⟨trivial, rfl⟩, hs⟩
    | fail => exact .stuck
    | pos => exact leaf_sim hk hg hs hp hf (.inl rfl)
    | skipRemainder => exact leaf_sim hk hg hs hp hf (.inr (.inl rfl))
    | endOfInput => exact leaf_sim hk hg hs hp hf (.inr (.inr rfl))
    | align m => exact align_sim hk hs hp hf
    | byte bs => exact byte_sim hk hs hp
    | variant label d =>
      simp only [Fragment] at hf
      simp only [Decoder.parse, exec]
      exact (sub hf hg c p hs hp).map fun w v p' hw => ⟨⟨hw.1.1, by rw [hw.1.2]; rfl⟩, hw.2⟩
    | branch tree ds => exact branch_sim ih hk hg hs hp hf
    | parallel ds =>
      simp only [Fragment] at hf
      obtain ⟨h1, h2, h3, h4⟩ := hf
      simp only [Decoder.parse, exec]
      cases ds with
      | nil => exact absurd rfl h2
      | cons d ds =>
        exact alts_sim h1 hs hp c.offset (fun d => Decoder.parse env n d s c) (fun d s p => exec env.program n d s p)
          (fun d hd g p hg hs hp => ih k.inner d s g c p h3 hd hg hs hp) ds d 0 g _ h4 hg (.inl rfl)
    | tuple ds =>
      simp only [Fragment] at hf
      simp only [Decoder.parse, exec]
      exact (seq_sim "arg" reserved_arg (fun d c => Decoder.parse env n d s c) (fun d s p => exec env.program n d s p)
        (fun d hd g c p hg hs hp => sub hd hg c p hs hp) ds hf 0 g _ [] p hg start hp).map
        fun w v p' hw => ⟨hw.1.tuple, hw.2⟩
    | sequence ds =>
      simp only [Fragment] at hf
      simp only [Decoder.parse, exec]
      exact (seq_sim "ix" reserved_ix (fun d c => Decoder.parse env n d s c) (fun d s p => exec env.program n d s p)
        (fun d hd g c p hg hs hp => sub hd hg c p hs hp) ds hf 0 g _ [] p hg start hp).map
        fun w v p' hw => ⟨hw.1.seq, hw.2⟩
    | while_ tree d =>
      simp only [Fragment] at hf
      simp only [Decoder.parse, exec]
      exact (while_sim hf.1 hf.2.1 hk hg (fun c => Decoder.parse env n d s c) (fun s p => exec env.program n d s p)
        (fun g c p hg hs hp => sub hf.2.2 hg c p hs hp) n _ [] p start hp).map fun w v p' hw => ⟨hw.1.seq, hw.2⟩
    | until_ tree d =>
      simp only [Fragment] at hf
      simp only [Decoder.parse, exec]
      exact (until_sim hf.2.1 hf.1 hg (fun c => Decoder.parse env n d s c) (fun s p => exec env.program n d s p)
        (fun c w h => starts_read n d hf.2.2.1 h)
        (fun g c p hg hs hp => sub hf.2.2.2 hg c p hs hp) n _ [] p start hp).map fun w v p' hw => ⟨hw.1.seq, hw.2⟩
    | repeatBetween tree x y d => simp only [Fragment] at hf
    | decodeBytes e d => simp only [Fragment] at hf
    | dynamic name l v d =>
      simp only [Fragment] at hf
      exact dynamic_sim hc ih hk hg hs hp hf.1 hf.2.1 hf.2.2.1 hf.2.2.2
    | apply name =>
      simp only [Fragment] at hf
      exact apply_sim hk hg hs hp hf
    | permit d e => simp only [Fragment] at hf
    | parseFromView v d => exact view_sim ih hk hg hs hp hf
    | letFormat d name d' =>
      simp only [Fragment] at hf
      simp only [Decoder.parse, exec]
      exact (sub hf.1 hg c p hs hp).bind fun w v p' hw ha =>
        .joinO (sub hf.2 (hg.single hw.1) _ p' hw.2 (hp.after ha))
    | monadSeq d d' =>
      simp only [Fragment] at hf
      simp only [Decoder.parse, exec]
      exact (sub hf.1 hg c p hs hp).bind fun w v p' hw ha => .joinO (sub hf.2 hg _ p' hw.2 (hp.after ha))
    | forEach e label d =>
      simp only [Fragment] at hf
      simp only [Decoder.parse, exec]
      refine (Agree.pure (evalItems_ok (hg.accum []) hf.1)).bind fun vs ws p' hv ha => ?_
      obtain ⟨rfl, hc, rfl⟩ := hv
      exact (fold_sim erase (fun v c => Decoder.parse env n d (.single label v s) c)
        (fun v acc p => exec env.program n d (.single label v (accum acc g)) p) vs
        (fun x hx vs c p hs hp => sub hf.2 ((hg.accum vs).single ⟨hc x hx, rfl⟩) c p hs hp) _ [] p' start hp).map
        fun w v p' hw => ⟨hw.1.seq, hw.2⟩
    | repeatCount e d =>
      simp only [Fragment] at hf
      simp only [Decoder.parse, exec]
      refine (Agree.pure (evalUsize_ok (hg.accum []) hf.1)).bind fun m m' p' hv ha => ?_
      obtain ⟨rfl, rfl⟩ := hv
      have := (fold_sim (k := k) (fun u : Unit => u) (fun (_ : Unit) c => Decoder.parse env n d s c)
        (fun (_ : Unit) acc p => exec env.program n d (accum acc g) p) (List.replicate m' ())
        (fun x hx vs c p hs hp => sub hf.2 (hg.accum vs) c p hs hp) _ [] p' start hp).map (Q' := QV k.bits)
        (f := fun acc => acc.map fun r => (.seq (.strict r.1), r.2)) (h := fun vs => .seq (.strict vs))
        fun w v p' hw => ⟨hw.1.seq, hw.2⟩
      rw [List.map_id'] at this
      exact this
    | maybe e d =>
      simp only [Fragment] at hf
      simp only [Decoder.parse, exec]
      refine (Agree.pure (evalBool_ok hg hf.1)).bind fun b b' p' hv ha => ?_
      obtain ⟨rfl, rfl⟩ := hv
      cases b' with
      | false => exact .here ⟨⟨trivial, rfl⟩, hs⟩
      | true =>
        exact (sub hf.2 (hg.hidden (n := "tmp_cond") (w := .bool true) (by decide +kernel)) c p' hs hp).map
          fun w v p' hw => ⟨⟨hw.1.1, by rw [hw.1.2]; rfl⟩, hw.2⟩
    | repeatUntilLast e d =>
      simp only [Fragment] at hf
      simp only [Decoder.parse, exec]
      exact (untilDone_sim hg (fun c => Decoder.parse env n d s c) (fun s p => exec env.program n d s p)
        (fun g c p hg hs hp => sub hf.2 hg c p hs hp) _ _
        (fun v w vs ws hv _ => lambdaBool_ok ((hg.accum _).hidden (n := "next_elem") (w := w) (by decide +kernel)) hf.1 hv)
        n _ [] p start hp).map fun w v p' hw => ⟨hw.1.seq, hw.2⟩
    | repeatUntilSeq e d =>
      simp only [Fragment] at hf
      simp only [Decoder.parse, exec]
      exact (untilDone_sim hg (fun c => Decoder.parse env n d s c) (fun s p => exec env.program n d s p)
        (fun g c p hg hs hp => sub hf.2 hg c p hs hp) _ _
        (fun v w vs ws _ hv => lambdaBool_ok ((hg.accum _).hidden (n := "next_elem") (w := w) (by decide +kernel)) hf.1
          hv.seq)
        n _ [] p start hp).map fun w v p' hw => ⟨hw.1.seq, hw.2⟩
    | accumUntil done update init d =>
      simp only [Fragment] at hf
      obtain ⟨h1, h2, h3, h4⟩ := hf
      simp only [Decoder.parse, exec]
      refine (Agree.pure (evalValue_ok (hg.hidden (n := "seq") (w := .seq (.strict [])) (by decide +kernel)) h3)).bind
        fun x y p' hxy ha => ?_
      obtain ⟨rfl, hxy⟩ := hxy
      exact (accum_sim hg h1 h2 (fun c => Decoder.parse env n d s c) (fun s p => exec env.program n d s p)
        (fun g c p hg hs hp => sub h4 hg c p hs hp) n x y _ [] p' hxy start hp).map
        fun r t p' hw => ⟨ERL.tuple (.cons hw.1 (.cons hw.2.1.seq .nil)), hw.2.2⟩
    | peek d =>
      simp only [Fragment] at hf
      simp only [Decoder.parse, exec]
      exact close_sim (l := .peek p.offset) rfl rfl hs
        (sub hf hg c p.openPeek (sim_openPeek hs) (holds_push (fun _ => rfl) hp))
    | peekNot d =>
      simp only [Fragment] at hf
      obtain ⟨h1, h2, h3⟩ := hf
      simp only [Decoder.parse, exec]
      have hi := ih k.inner d s g c p.openPeekNot h2 h3 hg (sim_push (fun _ => rfl) hs)
        (holds_push (fun _ => rfl) hp.inner)
      cases hr : Decoder.parse env n d s c with
      | panic => exact .panic
      | fuel => exact .fuel
      | ok w =>
        obtain ⟨v, p', g1, _, _⟩ := hi.1 w hr
        rw [g1]
        exact .err fun _ => ⟨_, p', rfl, fun hq => by rw [h1] at hq; cases hq⟩
      | err e =>
        obtain ⟨e', p', g1, g2⟩ := hi.2 e hr rfl
        rw [g1]
        simp only [recover_back (p := p) (l := .peekNot p.offset) rfl (g2 rfl), Res.op, Res.bind]
        exact .here ⟨ERL.nil.tuple, hs⟩
    | slice e d => exact slice_sim ih hk hg hs hp hf
    | bits d =>
      simp only [Fragment] at hf
      exact bits_sim ih hf.1 hf.2.1 hf.2.2 hg hs hp
    | withRelativeOffset base off d => exact offset_sim ih hk hg hs hp hf
    | map d e =>
      simp only [Fragment] at hf
      simp only [Decoder.parse, exec]
      refine (sub hf.2 hg c p hs hp).bind fun w v p' hw ha => ?_
      exact (Agree.pure (evalLambda_ok hg hf.1 hw.1)).bind fun x y p'' hxy _ => by
        obtain ⟨rfl, hxy⟩ := hxy
        exact .here ⟨⟨hxy.1, by rw [hxy.2]; rfl⟩, hw.2⟩
    | where_ d e strict =>
      simp only [Fragment] at hf
      simp only [Decoder.parse, exec]
      refine (sub hf.2 hg c p hs hp).bind fun w v p' hw ha => .joinO ?_
      refine (Agree.pure (lambdaBool_ok (hg.hidden (n := "inner") (w := v) (by decide +kernel)) hf.1 hw.1)).bind
        fun b b' p'' hb _ => ?_
      obtain ⟨rfl, rfl⟩ := hb
      cases b' with
      | true => exact .here hw
      | false =>
        cases strict with
        | true => exact .stuck
        | false => exact .here hw
    | compute e =>
      simp only [Fragment] at hf
      simp only [Decoder.parse, exec]
      exact (Agree.pure (evalValue_ok hg hf)).bind fun x y p' hxy _ => by
        obtain ⟨rfl, hxy⟩ := hxy
        exact .here ⟨hxy, hs⟩
    | let_ name e d =>
      simp only [Fragment] at hf
      simp only [Decoder.parse, exec]
      exact (Agree.pure (evalValue_ok hg hf.1)).bind fun x y p' hxy _ => by
        obtain ⟨rfl, hxy⟩ := hxy
        exact sub hf.2 (hg.single hxy) c p' hs hp
    | letView name d => exact letView_sim ih hk hg hs hp hf
    | match_ head branches =>
      simp only [Fragment] at hf
      simp only [Decoder.parse, exec]
      exact (Agree.pure (evalHead_ok hg hf.1)).bind fun x y p' hxy _ => by
        obtain ⟨rfl, hxy⟩ := hxy
        exact match_sim hxy hg _ _ (fun d hd bs bs' hb => sub hd (hg.withBindings hb) c p' hs hp) branches 0 hf.2
    | liftedNone => exact .here ⟨⟨trivial, rfl⟩, hs⟩
    | liftedSome d =>
      simp only [Fragment] at hf
      simp only [Decoder.parse, exec]
      exact (sub hf hg c p hs hp).map fun w v p' hw => ⟨⟨hw.1.1, by rw [hw.1.2]; rfl⟩, hw.2⟩
    | captureBytes v e => exact capture_sim hg hs hf
    | readArray v e kind => exact array_sim hg hs hf
    | reifyView v =>
      simp only [Fragment] at hf
      simp only [Decoder.parse, exec]
      exact (view_agree hg p hf).bind fun cv w p' hw _ => by
        obtain ⟨rfl, hw⟩ := hw
        exact .here ⟨⟨trivial, by rw [hw.1]; rfl⟩, hs⟩
    | enforce d =>
      simp only [Fragment] at hf
      simp only [Decoder.parse, exec]
      have hi := sub hf.2 hg c p hs hp
      cases hr : Decoder.parse env n d s c with
      | panic => exact .panic
      | fuel => exact .fuel
      | err e => exact .err fun h => by rw [hf.1] at h; cases h
      | ok w =>
        obtain ⟨v, p', g1, g2, g3⟩ := hi.1 w hr
        simp only [Outcome.bind_ok]
        cases w.errs with
        | nil => rw [g1]; exact .ok g2 g3
        | cons e es => exact .err fun h => by rw [hf.1] at h; cases h

end Gen
end Doodle
