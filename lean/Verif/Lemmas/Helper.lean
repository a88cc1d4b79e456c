import Verif.Spec.Helper
import Verif.Lemmas.Record
import Verif.Props.Record
import Verif.Props.Read
import Verif.Props.ByteSet
import Verif.Props.NumCore

namespace Doodle
namespace Helper

open Num (BitWidth)
open Record (parse_mono)

theorem ends_of {env : Env} {d : Decoder} {s : Scope Decoder} {c : ReadCtxt} {r : Outcome DecodeErr Parsed}
    (n : Nat) (hr : r ≠ .fuel) (h : Decoder.parse env n d s c = r) : Ends env d s c r :=
  ⟨hr, n, fun k => parse_mono h hr (Nat.le_add_right n k)⟩

theorem ends_ok {env : Env} {d : Decoder} {s : Scope Decoder} {c : ReadCtxt} {w : Parsed} :
    Ends env d s c (.ok w) ↔ Record.Yields env d s c w :=
  ⟨fun ⟨_, n, h⟩ => ⟨n, h 0⟩, fun ⟨n, h⟩ => ends_of n (by intro h; cases h) h⟩

theorem ends_err {env : Env} {d : Decoder} {s : Scope Decoder} {c : ReadCtxt} {e : DecodeErr} :
    Ends env d s c (.err e) ↔ Record.Fails env d s c e :=
  ⟨fun ⟨_, n, h⟩ => ⟨n, h 0⟩, fun ⟨n, h⟩ => ends_of n (by intro h; cases h) h⟩

/-- A decoder that ends in two ways ends in one way. -/
theorem Ends.unique {env : Env} {d : Decoder} {s : Scope Decoder} {c : ReadCtxt} {r r' : Outcome DecodeErr Parsed}
    (h : Ends env d s c r) (h' : Ends env d s c r') : r = r' := by
  obtain ⟨_, n, h⟩ := h
  obtain ⟨_, n', h'⟩ := h'
  rw [← h n', ← h' n, Nat.add_comm]

/-! ### integers -/

theorem bigEnd_eq (bs : List UInt8) : fromBeBytes bs = bigEnd bs := by
  rw [ReadCtxt.fromBeBytes_eq]
  induction bs with
  | nil => rfl
  | cons b bs ih => rw [ReadCtxt.bigEndian, bigEnd, ih]

theorem littleEnd_eq (bs : List UInt8) : Prelude.fromLeBytes bs = littleEnd bs := by
  induction bs with
  | nil => rfl
  | cons b bs ih =>
    rw [littleEnd, ← ih]; rfl

theorem bigEnd_lt (bs : List UInt8) : bigEnd bs < 256 ^ bs.length := by
  induction bs with
  | nil => exact Nat.one_pos
  | cons b bs ih =>
    rw [bigEnd, List.length_cons, Nat.pow_succ]
    have := b.toNat_lt
    have h : b.toNat * 256 ^ bs.length + 256 ^ bs.length ≤ 256 * 256 ^ bs.length := by
      rw [← Nat.succ_mul]; exact Nat.mul_le_mul_right _ this
    omega

theorem littleEnd_lt (bs : List UInt8) : littleEnd bs < 256 ^ bs.length := by
  induction bs with
  | nil => exact Nat.one_pos
  | cons b bs ih =>
    rw [littleEnd, List.length_cons, Nat.pow_succ]
    have := b.toNat_lt
    omega

theorem bits_bytes (w : BitWidth) : 2 ^ w.bits = 256 ^ (w.bits / 8) := by cases w <;> rfl

theorem u8List_map (bs : List UInt8) : Expr.u8List (bs.map Value.u8) = some bs := by
  induction bs with
  | nil => rfl
  | cons b bs ih =>
    rw [List.map_cons]
    simp only [Value.u8, Expr.u8List, ih, Option.map_some, UInt8.ofNat_toNat]

/-! ### reading bytes -/

theorem readByte_unread (c : ReadCtxt) : c.readByte =
    match unread c with
    | [] => none
    | b :: _ => some (b, ⟨c.input, c.offset + 1⟩) := by
  unfold ReadCtxt.readByte unread
  rcases h : c.input[c.offset]? with _ | b
  · rw [List.drop_eq_nil_of_le (List.getElem?_eq_none_iff.1 h)]
  · obtain ⟨hl, hb⟩ := List.getElem?_eq_some_iff.1 h
    rw [List.drop_eq_getElem_cons hl, hb]

theorem byte_ends (env : Env) (bs : ByteSet) (s : Scope Decoder) (c : ReadCtxt) :
    Ends env (.byte bs) s c (match unread c with
      | [] => .err (.overbyte c.offset)
      | b :: _ => if bs.contains b then .ok ⟨(.u8 b, ⟨c.input, c.offset + 1⟩), []⟩
        else .err (.unexpected b bs (c.offset + 1))) := by
  refine ends_of 1 ?_ ?_
  · cases unread c with
    | nil => intro h; cases h
    | cons b bs => dsimp only; split <;> intro h <;> cases h
  · show (match c.readByte with
      | none => _
      | some (b, c) => if bs.contains b then (Outcome.ok (WithErr.new (Value.u8 b, c)) : Outcome DecodeErr Parsed)
        else .err (.unexpected b bs c.offset)) = _
    rw [readByte_unread]
    cases unread c with
    | nil => rfl
    | cons b _ => rfl

theorem unread_step (c : ReadCtxt) : unread ⟨c.input, c.offset + 1⟩ = (unread c).tail := by
  simp only [unread, List.tail_drop]

theorem full_contains (b : UInt8) : ByteSet.full.contains b = true := ByteSet.C01_contains_full b

theorem foldBytes (env : Env) (n : Nat) (s : Scope Decoder) : ∀ (k : Nat) (acc : Decoder.Acc),
    Decoder.foldItems (fun d c => Decoder.parse env (n + 1) d s c) (List.replicate k (Decoder.byte .full)) acc =
      if k ≤ (unread acc.value.2).length then
        .ok ⟨(acc.value.1 ++ ((unread acc.value.2).take k).map Value.u8,
          ⟨acc.value.2.input, acc.value.2.offset + k⟩), acc.errs⟩
      else .err (.overbyte (Nat.max acc.value.2.offset acc.value.2.input.length))
  | 0, acc => by simp [Decoder.foldItems]
  | k + 1, acc => by
    rw [List.replicate_succ, Decoder.foldItems]
    have hb : Decoder.parse env (n + 1) (.byte .full) s acc.value.2 = match unread acc.value.2 with
      | [] => .err (.overbyte acc.value.2.offset)
      | b :: _ => .ok ⟨(.u8 b, ⟨acc.value.2.input, acc.value.2.offset + 1⟩), []⟩ := by
      show (match acc.value.2.readByte with
        | none => _
        | some (b, c) => if ByteSet.full.contains b then (Outcome.ok (WithErr.new (Value.u8 b, c)) : Outcome DecodeErr Parsed)
          else .err (.unexpected b .full c.offset)) = _
      rw [readByte_unread]
      cases unread acc.value.2 with
      | nil => rfl
      | cons b _ => simp only [full_contains, if_true]; rfl
    rw [hb]
    rcases hu : unread acc.value.2 with _ | ⟨b, rest⟩
    · rw [Outcome.bind_err, if_neg (by simp)]
      have : acc.value.2.input.length ≤ acc.value.2.offset := List.drop_eq_nil_iff.1 hu
      rw [show Nat.max acc.value.2.offset acc.value.2.input.length = acc.value.2.offset from Nat.max_eq_left this]
    · rw [Outcome.bind_ok, foldBytes env n s k]
      have h1 : unread (Decoder.push acc ⟨(.u8 b, ⟨acc.value.2.input, acc.value.2.offset + 1⟩), []⟩).value.2 = rest := by
        show unread ⟨acc.value.2.input, acc.value.2.offset + 1⟩ = rest
        rw [unread_step, hu]; rfl
      rw [h1]
      have hlt : acc.value.2.offset < acc.value.2.input.length := by
        have : (unread acc.value.2).length ≠ 0 := by rw [hu]; exact Nat.succ_ne_zero _
        rw [unread, List.length_drop] at this; omega
      by_cases hk : k ≤ rest.length
      · rw [if_pos hk, if_pos (by simpa using hk)]
        simp [Decoder.push, Nat.add_assoc, Nat.add_comm 1 k]
      · rw [if_neg hk, if_neg (by simpa using hk)]
        simp only [Decoder.push]
        rw [show Nat.max acc.value.2.offset acc.value.2.input.length = acc.value.2.input.length from
            Nat.max_eq_right (Nat.le_of_lt hlt),
          show Nat.max (acc.value.2.offset + 1) acc.value.2.input.length = acc.value.2.input.length from
            Nat.max_eq_right hlt]

theorem compileBytes [DecidableEq Next] (m : Module) (o : BuildOpts) : ∀ (k : Nat) (next : Next) (st : CompSt),
    compileFields m o (List.replicate k (Format.byte .full)) next st = .ok (List.replicate k (.byte .full), st)
  | 0, next, st => by simp only [List.replicate_zero, compileFields]
  | k + 1, next, st => by
    rw [List.replicate_succ, compileFields, compileFormat, Outcome.bind_ok]
    dsimp only
    rw [compileBytes m o k]; rfl

theorem fromBytes_sends {δ : Type} (w : BitWidth) (be : Bool) (s : Scope δ) (bs : List UInt8) (hlen : bs.length = w.bits / 8) :
    (Expr.lambda "x" (.fromBytes w be (.var "x"))).evalLambda s (.tuple (bs.map Value.u8)) =
      .ok (num w (if be then bigEnd bs else littleEnd bs)) := by
  refine Panicky.bind_eq_ok.2 ⟨num w (if be then bigEnd bs else littleEnd bs), ?_, rfl⟩
  refine Panicky.bind_eq_ok.2 ⟨.tuple (bs.map Value.u8), ?_, ?_⟩
  · show Panicky.unwrap (if "x" = "x" then _ else _) = _
    rfl
  · show (match Expr.u8List (bs.map Value.u8) with
      | some bs => if bs.length * 8 = w.bits then
          Value.mkNum (.fixed w) (if be then fromBeBytes bs else Prelude.fromLeBytes bs)
        else .panic
      | none => .panic) = _
    rw [u8List_map]
    dsimp only
    rw [if_pos (by rw [hlen]; cases w <;> rfl), bigEnd_eq, littleEnd_eq]
    have hlt : (if be then bigEnd bs else littleEnd bs) < (UKind.fixed w).card := by
      show _ < 2 ^ w.bits
      rw [bits_bytes, ← hlen]
      cases be
      · exact littleEnd_lt bs
      · exact bigEnd_lt bs
    unfold Value.mkNum num
    rw [dif_pos hlt]
    congr 2
    exact Fin.ext (Nat.mod_eq_of_lt hlt).symm

theorem word_behaves [DecidableEq Next] (w : BitWidth) (be : Bool) :
    Behaves (word w be) fun _ c => reads (w.bits / 8) (wordValue w be) c := by
  intro m o next st
  refine ⟨.map (.tuple (List.replicate (w.bits / 8) (.byte .full))) (.lambda "x" (.fromBytes w be (.var "x"))), ?_, ?_⟩
  · rw [word, compileFormat, compileFormat, compileFormat, compileBytes]; rfl
  · intro env s c
    dsimp only
    refine ends_of 3 ?_ ?_
    · unfold reads; split <;> intro h <;> cases h
    · show (((Decoder.foldItems (fun d c => Decoder.parse env 1 d s c) _ (.new ([], c))) >>= fun acc =>
        (.ok (acc.map fun r => (Value.tuple r.1, r.2)) : Outcome DecodeErr Parsed)) >>= _) = _
      rw [foldBytes env 0 s]
      show ((if w.bits / 8 ≤ (unread c).length then _ else _) >>= _) >>= _ = _
      unfold reads
      by_cases hl : w.bits / 8 ≤ (unread c).length
      · rw [if_pos hl, if_pos hl, Outcome.bind_ok, Outcome.bind_ok]
        have he := fromBytes_sends w be s ((unread c).take (w.bits / 8)) (by rw [List.length_take]; omega)
        show (Outcome.ofPanicky (Expr.evalLambda _ s (Value.tuple ([] ++ _))) >>= _) = _
        rw [List.nil_append]
        exact Outcome.bind_eq_ok.2 ⟨_, Outcome.ofPanicky_eq_ok.2 he, rfl⟩
      · rw [if_neg hl, if_neg hl]; rfl

theorem byte_behaves [DecidableEq Next] : Behaves (.byte .full) fun _ c => reads 1 (fun bs => .u8 (bs.headD 0)) c := by
  intro m o next st
  refine ⟨.byte .full, by rw [compileFormat], fun env s c => ?_⟩
  have h := byte_ends env .full s c
  dsimp only
  unfold reads
  rcases hu : unread c with _ | ⟨b, rest⟩
  · rw [hu] at h
    rw [if_neg (by simp)]
    have : c.input.length ≤ c.offset := List.drop_eq_nil_iff.1 hu
    rw [show Nat.max c.offset c.input.length = c.offset from Nat.max_eq_left this]
    exact h
  · rw [hu] at h
    rw [if_pos (by simp)]
    simp only [full_contains, if_true] at h
    exact h

/-! ### bits -/

theorem binary_append (a b : List Bool) : binary (a ++ b) = binary a * 2 ^ b.length + binary b := by
  induction a with
  | nil => simp [binary]
  | cons x a ih =>
    rw [List.cons_append, binary, binary, ih, List.length_append, Nat.pow_add, Nat.add_mul]
    rw [Nat.mul_assoc, Nat.add_assoc]

theorem binary_lt (a : List Bool) : binary a < 2 ^ a.length := by
  induction a with
  | nil => exact Nat.one_pos
  | cons x a ih =>
    rw [binary, List.length_cons, Nat.pow_succ]
    cases x <;> simp <;> omega

/-- the bits of a slice of the word -/
theorem binary_slice (bits : List Bool) (high n : Nat) (h : high + n ≤ bits.length) :
    (binary bits >>> (bits.length - high - n)) &&& (2 ^ n - 1) = binary ((bits.drop high).take n) := by
  have hs : bits = bits.take high ++ ((bits.drop high).take n ++ bits.drop (high + n)) := by
    rw [← List.drop_drop, List.take_append_drop, List.take_append_drop]
  have hl : (bits.drop (high + n)).length = bits.length - high - n := by rw [List.length_drop]; omega
  have hm : ((bits.drop high).take n).length = n := by rw [List.length_take, List.length_drop]; omega
  rw [Nat.and_two_pow_sub_one_eq_mod, Nat.shiftRight_eq_div_pow, ← hl]
  conv => lhs; rw [hs]
  rw [← List.append_assoc, binary_append, Nat.add_comm]
  rw [show (bits.take high ++ (bits.drop high).take n ++ bits.drop (high + n)).drop (high + n) = bits.drop (high + n) by
    rw [List.append_assoc, ← hs]]
  rw [Nat.add_mul_div_right _ _ (Nat.two_pow_pos _), Nat.div_eq_of_lt (binary_lt _), Nat.zero_add, binary_append, hm,
    Nat.add_comm, Nat.add_mul_mod_self_right, Nat.mod_eq_of_lt]
  exact Nat.lt_of_lt_of_eq (binary_lt _) (by rw [hm])

theorem msbFirst_length (b : UInt8) : (msbFirst b).length = 8 := by simp [msbFirst]

theorem msbFirst_binary (b : UInt8) : binary (msbFirst b) = b.toNat := by
  have : ∀ n : Fin 256, binary ((List.range 8).map fun i => n.val.testBit (7 - i)) = n.val := by decide +kernel
  exact this ⟨b.toNat, b.toNat_lt⟩

theorem bits_binary (bs : List UInt8) : binary (bs.flatMap msbFirst) = bigEnd bs := by
  induction bs with
  | nil => rfl
  | cons b bs ih =>
    rw [List.flatMap_cons, binary_append, msbFirst_binary, ih, bigEnd]
    have : (bs.flatMap msbFirst).length = 8 * bs.length := by
      clear ih
      induction bs with
      | nil => rfl
      | cons b bs ih => rw [List.flatMap_cons, List.length_append, ih, msbFirst_length, List.length_cons]; omega
    rw [this, Nat.pow_mul]

/-! ### packed fields -/

theorem num_eq {w : BitWidth} {n : Nat} (h : n < 2 ^ w.bits) : num w n = .num (.fixed w) ⟨n, h⟩ := by
  unfold num; congr 1; exact Fin.ext (Nat.mod_eq_of_lt h)

theorem mkNum_eq {w : BitWidth} {n : Nat} (h : n < 2 ^ w.bits) : Value.mkNum (.fixed w) n = .ok (num w n) := by
  rw [num_eq h]; exact dif_pos h

theorem lit_eval {δ : Type} (w : BitWidth) (n : Nat) (s : Scope δ) : (lit w n).eval s = .ok (num w n) := rfl

theorem bits_pos (w : BitWidth) : 0 < w.bits := by cases w <;> decide

theorem bits_le (w : BitWidth) : w.bits ≤ 64 := by cases w <;> decide

theorem arith_num {w : BitWidth} {op : Arith} {a b : Nat} (hop : op ≠ .boolOr) (hop' : op ≠ .boolAnd)
    (ha : a < 2 ^ w.bits) (hb : b < 2 ^ w.bits) :
    Value.arith op (num w a) (num w b) = Value.arithNum op (.fixed w) a b := by
  rw [num_eq ha, num_eq hb]
  cases op <;> first | exact absurd rfl hop | exact absurd rfl hop' | exact if_pos rfl

theorem bind_ok_eq {α β : Type} {x : Panicky α} {f : α → Panicky β} {a : α} (h : x = .ok a) : (x >>= f) = f a := by
  rw [h]; rfl

/-- the expression of a slice of the word -/
def sliceExpr (w : BitWidth) (high n : Nat) : Expr :=
  .arith .bitAnd (if w.bits - high - n = 0 then .var "_packed_bits"
    else .arith .shr (.var "_packed_bits") (lit w (w.bits - high - n))) (lit w (2 ^ n - 1))

theorem maskBits_eq {w : BitWidth} {high n : Nat} (h : high + n ≤ w.bits) (hn : n < w.bits) :
    maskBits w (.var "_packed_bits") high n = .ok (sliceExpr w high n) := by
  unfold maskBits
  rw [if_pos (by omega), if_pos hn]
  rfl

theorem slice_eval {δ : Type} {w : BitWidth} {high n : Nat} {bits : List Bool} {s : Scope δ} {v : Value}
    (hv : s.getValue "_packed_bits" = some v) (hc : v.coerceMapped = num w (binary bits))
    (hl : bits.length = w.bits) (h : high + n ≤ w.bits) (h0 : 0 < n) (hn : n < w.bits) :
    (sliceExpr w high n).eval s = .ok (num w (binary ((bits.drop high).take n))) := by
  have hb : binary bits < 2 ^ w.bits := hl ▸ binary_lt bits
  have hvar : (Expr.var "_packed_bits").eval s = .ok v := by
    show Panicky.unwrap (s.getValue "_packed_bits") = _
    rw [hv]; rfl
  have hsl := binary_slice bits high n (by omega)
  rw [hl] at hsl
  have hpn : 2 ^ n - 1 < 2 ^ w.bits :=
    Nat.lt_of_le_of_lt (Nat.sub_le _ _) (Nat.pow_lt_pow_right (by decide) hn)
  have hshift : binary bits >>> (w.bits - high - n) < 2 ^ w.bits := by
    rw [Nat.shiftRight_eq_div_pow]; exact Nat.lt_of_le_of_lt (Nat.div_le_self _ _) hb
  have hand : ∀ x v', (Expr.eval x s) = .ok v' → v'.coerceMapped = num w (binary bits >>> (w.bits - high - n)) →
      (Expr.arith .bitAnd x (lit w (2 ^ n - 1))).eval s = .ok (num w (binary ((bits.drop high).take n))) := by
    intro x v' hx hv'
    refine (bind_ok_eq hx).trans ?_
    refine (bind_ok_eq (lit_eval w (2 ^ n - 1) s)).trans ?_
    rw [hv']
    refine (arith_num (by decide) (by decide) hshift hpn).trans ?_
    show Value.mkNum _ _ = _
    rw [hsl]
    refine mkNum_eq ?_
    rw [← hsl]
    exact Nat.lt_of_le_of_lt Nat.and_le_left hshift
  unfold sliceExpr
  by_cases hz : w.bits - high - n = 0
  · rw [if_pos hz]
    refine hand _ v hvar ?_
    rw [hz, Nat.shiftRight_zero, hc]
  · rw [if_neg hz]
    refine hand _ (num w (binary bits >>> (w.bits - high - n))) ?_ rfl
    refine (bind_ok_eq hvar).trans ?_
    refine (bind_ok_eq (lit_eval w _ s)).trans ?_
    rw [hc]
    have h64 := bits_le w
    have hlt : w.bits - high - n < w.bits := by omega
    refine (arith_num (by decide) (by decide) hb (Nat.lt_trans hlt Nat.lt_two_pow_self)).trans ?_
    have hm : (w.bits - high - n) % u32Card = w.bits - high - n := by
      refine Nat.mod_eq_of_lt (Nat.lt_of_lt_of_le (Nat.lt_of_lt_of_le hlt h64) ?_); decide
    show (if (w.bits - high - n) % u32Card < w.bits then
      Value.mkNum _ (binary bits >>> ((w.bits - high - n) % u32Card)) else .panic) = _
    rw [hm, if_pos hlt]
    exact mkNum_eq hshift

/-- the expressions of the named fields -/
def fieldExprs (w : BitWidth) : List BitField → Nat → List (String × Expr)
  | [], _ => []
  | .flag x :: fs, high => (x, isNonzero w (sliceExpr w high 1)) :: fieldExprs w fs (high + 1)
  | .bits x n :: fs, high => (x, sliceExpr w high n) :: fieldExprs w fs (high + n)
  | .reserved n _ :: fs, high => fieldExprs w fs (high + n)

theorem bitLoop_eq {w : BitWidth} : ∀ (fs : List BitField) (high : Nat) (acc : List (String × Format)),
    high + (fs.map BitField.width).sum ≤ w.bits → (∀ f ∈ fs, 0 < f.width ∧ f.width < w.bits) →
    bitLoop w fs high 0 acc = .ok (acc ++ (fieldExprs w fs high).map fun p => (p.1, Format.compute p.2), 0)
  | [], high, acc, _, _ => by simp [bitLoop, fieldExprs]
  | f :: fs, high, acc, ht, hp => by
    rw [List.map_cons, List.sum_cons] at ht
    have ⟨h0, hn⟩ := hp f (List.mem_cons_self ..)
    have ih := fun high' acc' h => bitLoop_eq fs high' acc' h fun f hf => hp f (List.mem_cons_of_mem _ hf)
    have hm := maskBits_eq (w := w) (high := high) (n := f.width) (by omega) hn
    cases f with
    | flag x =>
      refine (bind_ok_eq (x := bitFieldFormat w (.flag x) high)
        (a := .compute (isNonzero w (sliceExpr w high 1))) ?_).trans ?_
      · exact (bind_ok_eq hm).trans rfl
      · rw [ih _ _ (by omega)]
        simp [fieldExprs, BitField.width]
    | bits x n =>
      refine (bind_ok_eq (x := bitFieldFormat w (.bits x n) high) (a := .compute (sliceExpr w high n)) ?_).trans ?_
      · exact (bind_ok_eq hm).trans rfl
      · rw [ih _ _ (by omega)]
        simp [fieldExprs, BitField.width]
    | reserved n z =>
      show (if z then _ else _) = _
      cases z
      · rw [if_neg (by decide), ih _ _ (by omega)]; rfl
      · rw [if_pos rfl]
        refine (bind_ok_eq (x := zeroMask w high n)
          (a := ((2 ^ n - 1) * 2 ^ (w.bits - (high + n))) % 2 ^ w.bits) ?_).trans ?_
        · have h0' : 0 < n := h0
          have hn' : n < w.bits := hn
          have ht' : high + (n + (fs.map BitField.width).sum) ≤ w.bits := ht
          unfold zeroMask
          rw [if_pos hn', if_pos (by omega)]
        · rw [Nat.zero_and, ih _ _ (by omega)]; rfl

theorem compileChain [DecidableEq Next] (m : Module) (o : BuildOpts) : ∀ (fields : List Record.Field)
    (captured : List (String × Expr)) (next : Next) (st : CompSt),
    (∀ f ∈ fields, ∀ (next : Next) (st : CompSt), ∃ d, compileFormat m o f.2 next st = .ok (d, st)) →
    ∃ d, compileFormat m o (Record.chainRecord captured fields) next st = .ok (d, st)
  | [], captured, next, st, _ => by
    rw [Record.chainRecord]
    split <;> exact ⟨_, by rw [compileFormat]⟩
  | (none, f) :: fields, captured, next, st, h => by
    obtain ⟨d, hd⟩ := h _ (List.mem_cons_self ..) (.cat (Record.chainRecord captured fields) next) st
    obtain ⟨d', hd'⟩ := compileChain m o fields captured next st fun f hf => h f (List.mem_cons_of_mem _ hf)
    exact ⟨_, by
      rw [Record.chainRecord, compileFormat]
      refine Outcome.bind_eq_ok.2 ⟨_, hd, ?_⟩
      exact Outcome.bind_eq_ok.2 ⟨_, hd', rfl⟩⟩
  | (some (x, b), f) :: fields, captured, next, st, h => by
    obtain ⟨d', hd'⟩ := compileChain m o fields (if b then captured ++ [(x, .var x)] else captured) next st
      fun f hf => h f (List.mem_cons_of_mem _ hf)
    obtain ⟨d, hd⟩ := h _ (List.mem_cons_self ..)
      (.cat (Record.chainRecord (if b then captured ++ [(x, .var x)] else captured) fields) next) st
    exact ⟨_, by
      rw [Record.chainRecord, compileFormat]
      refine Outcome.bind_eq_ok.2 ⟨_, hd, ?_⟩
      exact Outcome.bind_eq_ok.2 ⟨_, hd', rfl⟩⟩

theorem cut_names (w : BitWidth) : ∀ (fs : List BitField) (bits : List Bool),
    (cut w fs bits).map (·.1) = fs.filterMap BitField.name
  | [], _ => rfl
  | .flag x :: fs, bits => by rw [cut, List.map_cons, cut_names w fs]; rfl
  | .bits x n :: fs, bits => by rw [cut, List.map_cons, cut_names w fs]; rfl
  | .reserved n _ :: fs, bits => by rw [cut, cut_names w fs]; rfl

theorem exprs_names (w : BitWidth) : ∀ (fs : List BitField) (high : Nat),
    (fieldExprs w fs high).map (·.1) = fs.filterMap BitField.name
  | [], _ => rfl
  | .flag x :: fs, high => by rw [fieldExprs, List.map_cons, exprs_names w fs]; rfl
  | .bits x n :: fs, high => by rw [fieldExprs, List.map_cons, exprs_names w fs]; rfl
  | .reserved n _ :: fs, high => by rw [fieldExprs, exprs_names w fs]; rfl

theorem fields_run {env : Env} {w : BitWidth} {bits : List Bool} {v : Value} (hl : bits.length = w.bits)
    (hc : v.coerceMapped = num w (binary bits)) (c : ReadCtxt) : ∀ (fs : List BitField) (high : Nat) (s : Scope Decoder),
    high + (fs.map BitField.width).sum ≤ w.bits → (∀ f ∈ fs, 0 < f.width ∧ f.width < w.bits) →
    (∀ f ∈ fs, f.name ≠ some "_packed_bits") → s.getValue "_packed_bits" = some v →
    Record.FieldsRun env ((fieldExprs w fs high).map fun p => (some (p.1, true), .compute p.2)) s c
      ((cut w fs (bits.drop high)).map (·.2)) c []
  | [], _, _, _, _, _, _ => .nil
  | f :: fs, high, s, ht, hp, hn, hv => by
    rw [List.map_cons, List.sum_cons] at ht
    have ⟨h0, hlt⟩ := hp f (List.mem_cons_self ..)
    have hnf := hn f (List.mem_cons_self ..)
    have ih := fun high' s' h => fields_run (env := env) hl hc c fs high' s' h
      (fun f hf => hp f (List.mem_cons_of_mem _ hf)) (fun f hf => hn f (List.mem_cons_of_mem _ hf))
    have hev := slice_eval hv hc hl (high := high) (n := f.width) (by omega) h0 hlt
    have hbind : ∀ x v', x ≠ "_packed_bits" →
        (Record.bindField (some (x, true)) v' s).getValue "_packed_bits" = some v := by
      intro x v' hx
      rw [Record.getValue_bindField]
      have : ¬ (some (x, true) : Record.Lab).map (·.1) = some "_packed_bits" := fun h => hx (Option.some.inj h)
      simp only [this, if_false, Option.none_or]
      exact hv
    cases f with
    | flag x =>
      have hx : x ≠ "_packed_bits" := fun h => hnf (by rw [h]; rfl)
      refine .cons (errs := []) (errs' := []) (c' := c) (v := .bool ((bits.drop high).take 1 == [true])) ?_ ?_
      · refine Record.yields_compute.2 ⟨_, ?_, rfl⟩
        refine (bind_ok_eq (x := (isNonzero w (sliceExpr w high 1)).eval s)
          (a := .bool ((bits.drop high).take 1 == [true])) ?_).trans rfl
        refine (bind_ok_eq hev).trans ?_
        refine (bind_ok_eq (lit_eval w 0 s)).trans ?_
        have hlen : ((bits.drop high).take 1).length = 1 := by
          rw [List.length_take, List.length_drop]
          have : (BitField.flag x).width = 1 := rfl
          omega
        show Value.intRel .gt (num w (binary ((bits.drop high).take 1))) (num w 0) = _
        rw [num_eq (Nat.two_pow_pos _)]
        generalize (bits.drop high).take 1 = l at hlen
        rcases l with _ | ⟨b, _ | ⟨b', l⟩⟩
        · cases hlen
        · cases b
          · rw [show binary [false] = 0 from rfl, num_eq (Nat.two_pow_pos _)]
            show (if UKind.fixed w = UKind.fixed w then _ else _) = _
            rw [if_pos rfl]; rfl
          · rw [show binary [true] = 1 from rfl, num_eq (Nat.one_lt_two_pow (Nat.ne_of_gt (bits_pos w)))]
            show (if UKind.fixed w = UKind.fixed w then _ else _) = _
            rw [if_pos rfl]; rfl
        · cases hlen
      · have := ih (high + 1) _ (by have : (BitField.flag x).width = 1 := rfl; omega)
          (hbind x (.bool ((bits.drop high).take 1 == [true])) hx)
        rw [← List.drop_drop] at this
        exact this
    | bits x n =>
      have hx : x ≠ "_packed_bits" := fun h => hnf (by rw [h]; rfl)
      refine .cons (errs := []) (errs' := []) (c' := c) (v := num w (binary ((bits.drop high).take n))) ?_ ?_
      · refine Record.yields_compute.2 ⟨_, ?_, rfl⟩
        exact (bind_ok_eq hev).trans rfl
      · have := ih (high + n) _ (by have : (BitField.bits x n).width = n := rfl; omega)
          (hbind x (num w (binary ((bits.drop high).take n))) hx)
        rw [← List.drop_drop] at this
        exact this
    | reserved n z =>
      have := ih (high + n) s (by have : (BitField.reserved n z).width = n := rfl; omega) hv
      rw [← List.drop_drop] at this
      exact this

theorem compiled_computes [DecidableEq Next] {m : Module} {o : BuildOpts} : ∀ (es : List (Record.Lab × Expr))
    (parts : List (Record.Lab × Decoder)), Record.CompiledFrom m o (es.map fun p => (p.1, Format.compute p.2)) parts →
    parts = es.map fun p => (p.1, Decoder.compute p.2)
  | [], [], _ => rfl
  | e :: es, (l, d) :: ps, ⟨h1, ⟨next, st, st', h2⟩, h3⟩ => by
    rw [compileFormat] at h2
    cases h2
    cases h1
    rw [compiled_computes es ps h3]; rfl

theorem auto_labels {fs : List (String × Expr)} (h : ∀ p ∈ fs, Record.autoLabel p.1 = some (p.1, true)) :
    (fs.map fun p => (p.1, Format.compute p.2)).map (fun p => (Record.autoLabel p.1, p.2)) =
      (fs.map fun p => (some (p.1, true), p.2)).map fun p => (p.1, Format.compute p.2) := by
  rw [List.map_map, List.map_map]
  refine List.map_congr_left fun p hp => ?_
  show (Record.autoLabel p.1, Format.compute p.2) = _
  rw [h p hp]; rfl

theorem kept_all : ∀ (xs : List (String × Value)),
    Record.kept (xs.map fun p => some (p.1, true)) (xs.map (·.2)) = xs
  | [] => rfl
  | (x, v) :: xs => by
    show Record.kept (some (x, true) :: _) (v :: _) = _
    rw [Record.kept, kept_all xs]

theorem noRebind_all : ∀ (xs : List String), xs.Nodup → Record.NoRebind (xs.map fun x => some (x, true))
  | [], _ => trivial
  | x :: xs, h => by
    obtain ⟨h1, h2⟩ := List.nodup_cons.1 h
    refine ⟨noRebind_all xs h2, fun y hy b hb => ?_⟩
    cases hy
    obtain ⟨z, hz, he⟩ := List.mem_map.1 hb
    cases he
    exact h1 hz

/-- the fields packed in a word that a format decodes -/
theorem packed_behaves [DecidableEq Next] {w : BitWidth} {fs : List BitField} (hf : Fields w fs) {g : Format}
    {n : Nat} {k : List UInt8 → Value} (hg : Behaves g fun _ c => reads n k c)
    (hk : ∀ bs, bs.length = n → (bs.flatMap msbFirst).length = w.bits ∧
      (k bs).coerceMapped = num w (binary (bs.flatMap msbFirst))) :
    Behaves (Record.recordAuto (("_packed_bits", g) :: (fieldExprs w fs 0).map fun p => (p.1, Format.compute p.2)))
      fun _ c => reads n (fun bs => recordOf (cut w fs (bs.flatMap msbFirst))) c := by
  intro m o next st
  have hnames : ∀ p ∈ fieldExprs w fs 0, Record.autoLabel p.1 = some (p.1, true) := by
    intro p hp
    have : p.1 ∈ fs.filterMap BitField.name := by
      rw [← exprs_names w fs 0]; exact List.mem_map_of_mem hp
    obtain ⟨f, hfm, hx⟩ := List.mem_filterMap.1 this
    exact hf.kept f hfm _ hx
  have hfields : (("_packed_bits", g) :: (fieldExprs w fs 0).map fun p => (p.1, Format.compute p.2)).map
      (fun p => (Record.autoLabel p.1, p.2)) = (some ("_packed_bits", false), g) ::
      ((fieldExprs w fs 0).map fun p => (some (p.1, true), p.2)).map fun p => (p.1, Format.compute p.2) := by
    rw [List.map_cons, auto_labels hnames,
      show Record.autoLabel "_packed_bits" = some ("_packed_bits", false) by decide +kernel]
  have hne : ∀ f ∈ fs, f.name ≠ some "_packed_bits" := by
    intro f hfm hx
    have := hf.kept f hfm _ hx
    exact absurd this (by decide +kernel)
  have hc : ∃ d, compileFormat m o (Record.recordAuto (("_packed_bits", g) ::
      (fieldExprs w fs 0).map fun p => (p.1, Format.compute p.2))) next st = .ok (d, st) := by
    rw [Record.recordAuto, hfields, Record.recordExt, compileFormat]
    refine compileChain m o _ [] next st ?_
    intro f hfm next st
    rcases List.mem_cons.1 hfm with rfl | hfm
    · obtain ⟨d, hd, _⟩ := hg m o next st
      exact ⟨d, hd⟩
    · obtain ⟨p, _, rfl⟩ := List.mem_map.1 hfm
      exact ⟨_, by rw [compileFormat]⟩
  obtain ⟨d, hd⟩ := hc
  refine ⟨d, hd, ?_⟩
  rw [Record.recordAuto, hfields] at hd
  have hlab : (((some ("_packed_bits", false), g) :: ((fieldExprs w fs 0).map fun p =>
      (some (p.1, true), p.2)).map fun p => (p.1, Format.compute p.2)) : List Record.Field).map (·.1) =
      some ("_packed_bits", false) :: (fs.filterMap BitField.name).map fun x => some (x, true) := by
    rw [← exprs_names w fs 0]; simp
  have hr : Record.NoRebind ((((some ("_packed_bits", false), g) :: ((fieldExprs w fs 0).map fun p =>
      (some (p.1, true), p.2)).map fun p => (p.1, Format.compute p.2)) : List Record.Field).map (·.1)) := by
    rw [hlab]
    exact ⟨noRebind_all _ hf.nodup, fun x hx => by cases hx⟩
  obtain ⟨parts, hp, hy⟩ := Record.C18_fields_partial m o _ next st st d hr hd
  obtain ⟨parts', hp', hfail⟩ := Record.C18_failure m o _ next st st d hd
  intro env s c
  dsimp only
  unfold reads
  by_cases hlen : n ≤ (unread c).length
  · rw [if_pos hlen, ends_ok, hy]
    match parts, hp with
    | (l, d0) :: ps, ⟨h1, ⟨next0, st0, st0', h2⟩, h3⟩ =>
      have h1 : l = some ("_packed_bits", false) := h1
      subst h1
      obtain ⟨d1, hd1, hrun⟩ := hg m o next0 st0
      have h2 : compileFormat m o g next0 st0 = .ok (d0, st0') := h2
      rw [h2] at hd1
      cases hd1
      have := compiled_computes _ ps h3
      subst this
      have hb : ((unread c).take n).length = n := by rw [List.length_take]; omega
      obtain ⟨hbl, hbv⟩ := hk _ hb
      have h0 := hrun env s c
      dsimp only at h0
      unfold reads at h0
      rw [if_pos hlen, ends_ok] at h0
      have hfr := fields_run (env := env) hbl hbv ⟨c.input, c.offset + n⟩ fs 0
        (.single "_packed_bits" (k ((unread c).take n)) s) (by rw [Nat.zero_add, hf.total]; exact Nat.le_refl _) hf.part hne
        (by show (if "_packed_bits" = "_packed_bits" then _ else _) = _; rfl)
      rw [List.drop_zero] at hfr
      refine ⟨_, _, _, .cons h0 (by rw [List.map_map]; exact hfr), ?_⟩
      rw [hlab]
      show _ = WithErr.mk (Record.recordValue (Record.kept _ _), _) _
      rw [← cut_names w fs (((unread c).take n).flatMap msbFirst), List.map_map]
      show _ = WithErr.mk (Record.recordValue (Record.kept (List.map (fun (p : String × Value) => some (p.1, true)) _) _), _) _
      rw [kept_all]
      unfold recordOf Record.recordValue
      dsimp only
      cases cut w fs (((unread c).take n).flatMap msbFirst) <;> rfl
  · rw [if_neg hlen, ends_err, hfail]
    match parts', hp' with
    | (l, d0) :: ps, ⟨h1, ⟨next0, st0, st0', h2⟩, h3⟩ =>
      obtain ⟨d1, hd1, hrun⟩ := hg m o next0 st0
      have h2 : compileFormat m o g next0 st0 = .ok (d0, st0') := h2
      rw [h2] at hd1
      cases hd1
      have h0 := hrun env s c
      dsimp only at h0
      unfold reads at h0
      rw [if_neg hlen, ends_err] at h0
      exact .here h0

/-! ### signed integers and literal bytes -/

theorem reads_ne_fuel (n : Nat) (k : List UInt8 → Value) (c : ReadCtxt) : reads n k c ≠ .fuel := by
  unfold reads; split <;> intro h <;> cases h

theorem ends_letFormat {env : Env} {a b : Decoder} {x : String} {s : Scope Decoder} {c : ReadCtxt}
    {r : Outcome DecodeErr Parsed} {r' : Value → ReadCtxt → Outcome DecodeErr Parsed} (h : Ends env a s c r)
    (h' : ∀ v c', Ends env b (.single x v s) c' (r' v c')) :
    Ends env (.letFormat a x b) s c (r >>= fun w => w.joinO fun q => r' q.1 q.2) := by
  obtain ⟨hr, n, hn⟩ := h
  cases r with
  | fuel => exact absurd rfl hr
  | err e =>
    refine ends_of (n + 1) (by intro h; cases h) ?_
    show (Decoder.parse env n a s c >>= _) = _
    rw [show Decoder.parse env n a s c = _ from hn 0]; rfl
  | panic =>
    refine ends_of (n + 1) (by intro h; cases h) ?_
    show (Decoder.parse env n a s c >>= _) = _
    rw [show Decoder.parse env n a s c = _ from hn 0]; rfl
  | ok w =>
    obtain ⟨hr', n', hn'⟩ := h' w.value.1 w.value.2
    have he : Decoder.parse env (n + n' + 1) (.letFormat a x b) s c =
        (.ok w >>= fun w => w.joinO fun q => r' q.1 q.2) := by
      show (Decoder.parse env (n + n') a s c >>= fun w => w.joinO fun q => Decoder.parse env (n + n') b (.single x q.1 s) q.2) = _
      rw [hn n', Outcome.bind_ok, Outcome.bind_ok]
      unfold WithErr.joinO
      dsimp only
      rw [Nat.add_comm n n', hn' n]
    refine ends_of (n + n' + 1) ?_ he
    rw [Outcome.bind_ok]
    unfold WithErr.joinO
    dsimp only
    revert hr'
    generalize r' w.value.1 w.value.2 = q
    intro hr'
    cases q <;> first | exact absurd rfl hr' | (intro h; cases h)

theorem ends_compute {env : Env} {e : Expr} {s : Scope Decoder} {c : ReadCtxt} {v : Value}
    (h : e.evalValue s = .ok v) : Ends env (.compute e) s c (.ok ⟨(v, c), []⟩) :=
  ends_ok.2 (Record.yields_compute.2 ⟨v, h, rfl⟩)

theorem ends_compute' {env : Env} {e : Expr} {s : Scope Decoder} {c : ReadCtxt} :
    Ends env (.compute e) s c (Outcome.ofPanicky (e.evalValue s) >>= fun v => .ok ⟨(v, c), []⟩) := by
  refine ends_of 1 ?_ rfl
  cases e.evalValue s <;> intro h <;> cases h

theorem rustAs_twos (w : BitWidth) (n : Nat) (h : n < 2 ^ w.bits) :
    Num.rustAs ⟨true, w⟩ n = twosComplement w n := by
  rw [Num.rustAs_eq]
  unfold twosComplement
  by_cases h2 : 2 * n < 2 ^ w.bits
  · rw [if_pos h2, if_neg]
    · cases w <;> simp only [BitWidth.bits] at h ⊢ <;> omega
    · rintro ⟨_, h3⟩
      cases w <;> simp only [BitWidth.bits] at h h2 h3 <;> omega
  · rw [if_neg h2, if_pos]
    · cases w <;> simp only [BitWidth.bits] at h ⊢ <;> omega
    · refine ⟨rfl, ?_⟩
      cases w <;> simp only [BitWidth.bits] at h h2 ⊢ <;> omega

theorem bytes_len (n : Nat) (l : List UInt8) (h : n ≤ l.length) : (l.take n).length = n := by
  rw [List.length_take]; omega

theorem ofNat_byte (n : Nat) (h : n < 256) : Value.u8 (UInt8.ofNat n) = num .b8 n := by
  rw [num_eq h]
  unfold Value.u8
  congr 1
  exact Fin.ext (by simp; omega)

theorem cast_signed {δ : Type} {s : Scope δ} {w : BitWidth} {v : Value} {z : Nat}
    (h1 : v.toStrict = some ⟨⟨z, .concrete ⟨false, w⟩⟩, true⟩) (h2 : z < 2 ^ w.bits) :
    (Expr.numeric (.cast ⟨true, w⟩ true (.numVar "raw"))).evalValue (.single "raw" v s) =
      .ok (.numeric ⟨twosComplement w z, .concrete ⟨true, w⟩⟩) := by
  refine (bind_ok_eq (a := Value.numeric ⟨twosComplement w z, .concrete ⟨true, w⟩⟩) ?_).trans rfl
  show Expr.numericResult (((Scope.numLookup (.single "raw" v s) "raw").bind fun s => .ok s.value).bind _) = _
  have hlk : Scope.numLookup (.single "raw" v s) "raw" = .ok ⟨⟨z, .concrete ⟨false, w⟩⟩, true⟩ := by
    unfold Scope.numLookup
    rw [show Scope.getValue "raw" (.single "raw" v s) = some v from if_pos rfl]
    dsimp only
    rw [h1]
  rw [hlk]
  show Expr.numericResult (match Num.bitwiseCast z (.concrete ⟨false, w⟩) ⟨true, w⟩ with
    | .ok n => .ok ⟨n, .concrete ⟨true, w⟩⟩
    | .panic => .panic) = _
  have hb : Num.bitwiseCast z (.concrete ⟨false, w⟩) ⟨true, w⟩ = .ok (twosComplement w z) := by
    show (if Num.castNeeded ⟨false, w⟩ ⟨true, w⟩ then Num.bigintAs _ _ _ else _) = _
    rw [if_pos (by cases w <;> rfl)]
    unfold Num.bigintAs
    rw [if_pos, rustAs_twos w _ h2]
    cases w <;> simp [Num.MachineRep.asBounds, BitWidth.bits] at h2 ⊢ <;> omega
  rw [hb]; rfl

theorem mapNumeric_signed [DecidableEq Next] {w : BitWidth} {g : Format} {n : Nat} {k : List UInt8 → Value}
    {z : List UInt8 → Nat} (hg : Behaves g fun _ c => reads n k c)
    (hk : ∀ bs, bs.length = n → (k bs).toStrict = some ⟨⟨z bs, .concrete ⟨false, w⟩⟩, true⟩ ∧ z bs < 2 ^ w.bits) :
    Behaves (mapNumeric g fun v => .cast ⟨true, w⟩ true v)
      fun _ c => reads n (fun bs => .numeric ⟨twosComplement w (z bs), .concrete ⟨true, w⟩⟩) c := by
  intro m o next st
  obtain ⟨d, hd, hr⟩ := hg m o (.cat (.compute (.numeric (.cast ⟨true, w⟩ true (.numVar "raw")))) next) st
  refine ⟨.letFormat d "raw" (.compute (.numeric (.cast ⟨true, w⟩ true (.numVar "raw")))), ?_, fun env s c => ?_⟩
  · unfold mapNumeric
    rw [compileFormat]
    refine Outcome.bind_eq_ok.2 ⟨_, hd, ?_⟩
    rw [compileFormat]; rfl
  · have h := ends_letFormat (x := "raw") (hr env s c) fun v c' =>
      ends_compute' (env := env) (e := .numeric (.cast ⟨true, w⟩ true (.numVar "raw"))) (s := .single "raw" v s) (c := c')
    refine (congrArg (Ends env _ s c) ?_).mp h
    dsimp only
    unfold reads
    by_cases hl : n ≤ (unread c).length
    · rw [if_pos hl, if_pos hl, Outcome.bind_ok]
      obtain ⟨h1, h2⟩ := hk _ (bytes_len _ _ hl)
      generalize (unread c).take n = bs at h1 h2
      have he := cast_signed (s := s) h1 h2
      show WithErr.joinO _ _ = _
      unfold WithErr.joinO
      dsimp only
      rw [he]
      rfl
    · rw [if_neg hl, if_neg hl]; rfl

theorem contains_one (b x : UInt8) : (ByteSet.fromIter [b]).contains x = decide (x = b) := by
  rw [Bool.eq_iff_iff, ByteSet.C01_contains_fromIter, List.mem_singleton, decide_eq_true_iff]

theorem foldLits (env : Env) (n : Nat) (s : Scope Decoder) : ∀ (bs : List UInt8) (acc : Decoder.Acc),
    (bs <+: unread acc.value.2 →
      Decoder.foldItems (fun d c => Decoder.parse env (n + 1) d s c)
        (bs.map fun b => Decoder.byte (ByteSet.fromIter [b])) acc =
        .ok ⟨(acc.value.1 ++ bs.map Value.u8, ⟨acc.value.2.input, acc.value.2.offset + bs.length⟩), acc.errs⟩) ∧
    (¬ bs <+: unread acc.value.2 → ∃ e,
      Decoder.foldItems (fun d c => Decoder.parse env (n + 1) d s c)
        (bs.map fun b => Decoder.byte (ByteSet.fromIter [b])) acc = .err e)
  | [], acc => by
    refine ⟨fun _ => by simp [Decoder.foldItems], fun h => absurd (List.nil_prefix ..) h⟩
  | b :: bs, acc => by
    have hb : Decoder.parse env (n + 1) (.byte (ByteSet.fromIter [b])) s acc.value.2 = match unread acc.value.2 with
      | [] => .err (.overbyte acc.value.2.offset)
      | x :: _ => if x = b then .ok ⟨(.u8 x, ⟨acc.value.2.input, acc.value.2.offset + 1⟩), []⟩
        else .err (.unexpected x (ByteSet.fromIter [b]) (acc.value.2.offset + 1)) := by
      show (match acc.value.2.readByte with
        | none => _
        | some (x, c) => if (ByteSet.fromIter [b]).contains x then (Outcome.ok (WithErr.new (Value.u8 x, c)) : Outcome DecodeErr Parsed)
          else .err (.unexpected x (ByteSet.fromIter [b]) c.offset)) = _
      rw [readByte_unread]
      cases unread acc.value.2 with
      | nil => rfl
      | cons x _ => simp only [contains_one, decide_eq_true_eq]; rfl
    rw [List.map_cons, Decoder.foldItems, hb]
    rcases hu : unread acc.value.2 with _ | ⟨x, rest⟩
    · exact ⟨fun h => absurd (List.prefix_nil.1 h) (by simp), fun _ => ⟨_, rfl⟩⟩
    · dsimp only
      by_cases hx : x = b
      · rw [if_pos hx, Outcome.bind_ok]
        subst hx
        obtain ⟨h1, h2⟩ := foldLits env n s bs
          (Decoder.push acc ⟨(.u8 x, ⟨acc.value.2.input, acc.value.2.offset + 1⟩), []⟩)
        have hr : unread (Decoder.push acc ⟨(.u8 x, ⟨acc.value.2.input, acc.value.2.offset + 1⟩), []⟩).value.2 = rest := by
          show unread ⟨acc.value.2.input, acc.value.2.offset + 1⟩ = rest
          rw [unread_step, hu]; rfl
        rw [hr] at h1 h2
        refine ⟨fun h => ?_, fun h => h2 fun h' => h ?_⟩
        · rw [h1 ((List.cons_prefix_cons.1 h).2)]
          simp [Decoder.push, Nat.add_assoc, Nat.add_comm 1]
        · exact List.cons_prefix_cons.2 ⟨rfl, h'⟩
      · rw [if_neg hx]
        exact ⟨fun h => absurd (List.cons_prefix_cons.1 h).1.symm hx, fun _ => ⟨_, rfl⟩⟩

theorem compileLits [DecidableEq Next] (m : Module) (o : BuildOpts) : ∀ (bs : List UInt8) (next : Next) (st : CompSt),
    compileFields m o (bs.map isByte) next st = .ok (bs.map fun b => .byte (ByteSet.fromIter [b]), st)
  | [], next, st => by simp only [List.map_nil, compileFields]
  | b :: bs, next, st => by
    rw [List.map_cons, compileFields, isByte, compileFormat, Outcome.bind_ok]
    dsimp only
    rw [compileLits m o bs]; rfl

end Helper
end Doodle
