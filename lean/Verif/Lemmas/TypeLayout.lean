import Verif.Lemmas.TypeTable

/-! Sizes, alignments and `Copy` of generated types. -/

namespace Doodle
namespace TypeAnalysis

open Num (BitWidth)

/-! ### rounding up -/

theorem and_high (x k : Nat) (hk : k ≤ 64) (hx : x < 2 ^ 64) : x &&& (2 ^ 64 - 1 - (2 ^ k - 1)) = 2 ^ k * (x / 2 ^ k) := by
  have hm : (2 : Nat) ^ 64 - 1 - (2 ^ k - 1) = 2 ^ k * (2 ^ (64 - k) - 1) := by
    have h1 : (2 : Nat) ^ 64 = 2 ^ k * 2 ^ (64 - k) := by rw [← Nat.pow_add]; congr 1; omega
    rw [Nat.mul_sub, Nat.mul_one, ← h1]
    have := Nat.two_pow_pos k
    omega
  rw [hm]
  apply Nat.eq_of_testBit_eq
  intro i
  rw [Nat.testBit_and, Nat.testBit_two_pow_mul, Nat.testBit_two_pow_mul, Nat.testBit_two_pow_sub_one, Nat.testBit_div_two_pow]
  by_cases h : i ≥ k
  · simp only [h, decide_true, Bool.true_and]
    rw [Nat.sub_add_cancel h]
    by_cases h' : i - k < 64 - k
    · simp [h']
    · have : x.testBit i = false := Nat.testBit_lt_two_pow (Nat.lt_of_lt_of_le hx (Nat.pow_le_pow_right (by omega) (by omega)))
      simp [this]
  · simp [h]

theorem aligned_rounded (size k : Nat) (hk : k ≤ 63) (h : size + 2 ^ k ≤ usizeMax) :
    RoundedUp size (2 ^ k) (alignedSize size (2 ^ k)) := by
  have hp := Nat.two_pow_pos k
  unfold alignedSize
  unfold usizeMax at h ⊢
  rw [and_high _ k (by omega) (by omega)]
  have hd := Nat.div_add_mod (size + 2 ^ k - 1) (2 ^ k)
  have hlt := Nat.mod_lt (size + 2 ^ k - 1) hp
  refine ⟨⟨_, rfl⟩, by omega, fun m ⟨q, hq⟩ hm => ?_⟩
  subst hq
  apply Nat.mul_le_mul_left
  have : (size + 2 ^ k - 1) / 2 ^ k < q + 1 := by
    rw [Nat.div_lt_iff_lt_mul hp, Nat.add_mul, Nat.one_mul, Nat.mul_comm]
    omega
  omega

def Pow (a : Nat) : Prop := a = 1 ∨ a = 2 ∨ a = 4 ∨ a = 8

theorem Pow.max {a b : Nat} (ha : Pow a) (hb : Pow b) : Pow (max a b) := by unfold Pow at *; omega

theorem Pow.exp {a : Nat} (ha : Pow a) : ∃ k, k ≤ 3 ∧ a = 2 ^ k := by
  rcases ha with h | h | h | h
  · exact ⟨0, by omega, h⟩
  · exact ⟨1, by omega, h⟩
  · exact ⟨2, by omega, h⟩
  · exact ⟨3, by omega, h⟩

theorem Pow.rounded {a size : Nat} (ha : Pow a) (h : size + a ≤ usizeMax) : RoundedUp size a (alignedSize size a) := by
  obtain ⟨k, hk, rfl⟩ := ha.exp
  exact aligned_rounded size k (by omega) h

theorem Pow.isPow {a : Nat} (ha : Pow a) : a.isPowerOfTwo := by
  obtain ⟨k, _, rfl⟩ := ha.exp
  exact ⟨k, rfl⟩

theorem RoundedUp.unique {s a r r' : Nat} (h : RoundedUp s a r) (h' : RoundedUp s a r') : r = r' :=
  Nat.le_antisymm (h.2.2 r' h'.1 h'.2.1) (h'.2.2 r h.1 h.2.1)

theorem bits_pow (w : BitWidth) : Pow (w.bits / 8) := by
  cases w <;> simp [Pow, BitWidth.bits]

/-! ### generated types -/

structure Good (defs : List TypeDef) (C : Ctx (Outcome Unit)) (k : Nat) : Prop where
  align : ∀ j, j < k → ∃ a, C.align j = .ok a ∧ Pow a
  niches : ∀ j, j < k → ∃ m, C.niches j = .ok m
  size : ∀ j, j < k → C.size j = .err () ∨ ∃ s a, C.align j = .ok a ∧ C.size j = .ok s ∧ a ∣ s
  copy : ∀ j, j < k → ∃ b, C.copy j = .ok b ∧ (b = true ↔ IsCopy defs (.localDef j))
  unreachable : ∀ {α : Type}, C.unreachable (α := α) = .panic
  overflow : ∀ {α : Type}, C.overflow (α := α) = .err ()

section
variable {defs : List TypeDef} {C : Ctx (Outcome Unit)} {k : Nat} (G : Good defs C k)
include G

mutual
theorem good_align : ∀ t : RType, t.Generated k → ∃ a, t.alignHint C = .ok a ∧ Pow a
  | .prim p, _ => by
    refine ⟨p.align, rfl, ?_⟩
    cases p <;> first | exact bits_pow _ | simp [Pow, Prim.align]
  | .signed w, _ => ⟨_, rfl, bits_pow w⟩
  | .localDef ix, h => G.align ix h
  | .vec _, _ => ⟨8, rfl, by simp [Pow]⟩
  | .option t, h => good_align t h
  | .borrow _ _, _ => ⟨8, rfl, by simp [Pow]⟩
  | .phantomData _, _ => ⟨1, rfl, by simp [Pow]⟩
  | .tuple ts, h => by
    obtain ⟨a, h1, h2, _⟩ := good_alignAll ts h
    exact ⟨a, h1, h2⟩
  | .readArray, _ => ⟨8, rfl, by simp [Pow]⟩
  | .viewObject, _ => ⟨8, rfl, by simp [Pow]⟩
  | .external, h => absurd h id
  | .rawSlice _, h => absurd h id
  | .result _ _, h => absurd h id
  | .verbatim, h => absurd h id

theorem good_alignAll : ∀ ts : List RType, RType.AllGenerated k ts → ∃ a, RType.alignAll C ts = .ok a ∧ Pow a ∧ LargestAlign C ts a
  | [], _ => ⟨1, rfl, by simp [Pow], fun _ h => (nomatch h), .inl rfl⟩
  | t :: ts, h => by
    obtain ⟨a, h1, h2⟩ := good_align t h.1
    obtain ⟨b, h3, h4, h5, h6⟩ := good_alignAll ts h.2
    refine ⟨max a b, ?_, h2.max h4, ?_, ?_⟩
    · change (t.alignHint C).bind _ = _
      rw [h1]
      change (RType.alignAll C ts).bind _ = _
      rw [h3]; rfl
    · intro u hu
      rcases List.mem_cons.1 hu with rfl | hu
      · exact ⟨a, h1, by omega⟩
      · obtain ⟨c, hc, hl⟩ := h5 u hu
        exact ⟨c, hc, by omega⟩
    · by_cases hab : a ≤ b
      · rw [Nat.max_eq_right hab]
        rcases h6 with h6 | ⟨u, hu, h6⟩
        · exact .inl h6
        · exact .inr ⟨u, List.mem_cons_of_mem _ hu, h6⟩
      · rw [Nat.max_eq_left (by omega)]
        exact .inr ⟨t, List.mem_cons_self, h1⟩
end

mutual
theorem good_niches : ∀ t : RType, t.Generated k → ∃ a, t.niches C = .ok a
  | .prim p, _ => ⟨_, rfl⟩
  | .signed w, _ => ⟨_, rfl⟩
  | .localDef ix, h => G.niches ix h
  | .vec _, _ => ⟨_, rfl⟩
  | .option t, h => by
    obtain ⟨n, h1⟩ := good_niches t h
    obtain ⟨a, h2, h3⟩ := good_align G t h
    unfold RType.niches
    change ∃ a, (t.niches C).bind _ = _
    rw [h1]
    change ∃ a, (if n = 0 then (t.alignHint C).bind _ else _) = _
    split
    · rw [h2]
      change ∃ b, (if 1 ≤ a ∧ a ≤ 7 then _ else if a = 8 then _ else _) = _
      split
      · exact ⟨_, rfl⟩
      · split
        · exact ⟨_, rfl⟩
        · exfalso; unfold Pow at h3; omega
    · exact ⟨_, rfl⟩
  | .borrow _ _, _ => ⟨_, rfl⟩
  | .phantomData _, _ => ⟨_, rfl⟩
  | .tuple ts, h => by
    obtain ⟨ns, h1⟩ := good_nichesAll ts h
    refine ⟨nicheProduct ns, ?_⟩
    unfold RType.niches
    change (RType.nichesAll C ts).bind _ = _
    rw [h1]; rfl
  | .readArray, _ => ⟨_, rfl⟩
  | .viewObject, _ => ⟨_, rfl⟩
  | .external, h => absurd h id
  | .rawSlice _, h => absurd h id
  | .result _ _, h => absurd h id
  | .verbatim, h => absurd h id

theorem good_nichesAll : ∀ ts : List RType, RType.AllGenerated k ts → ∃ a, RType.nichesAll C ts = .ok a
  | [], _ => ⟨_, rfl⟩
  | t :: ts, h => by
    obtain ⟨a, h1⟩ := good_niches t h.1
    obtain ⟨b, h3⟩ := good_nichesAll ts h.2
    refine ⟨a :: b, ?_⟩
    change (t.niches C).bind _ = _
    rw [h1]
    change (RType.nichesAll C ts).bind _ = _
    rw [h3]; rfl
end

theorem add_cases (a b : Nat) : C.add a b = .err () ∨ C.add a b = .ok (a + b) := by
  unfold Ctx.add; split
  · exact .inr rfl
  · exact .inl G.overflow

theorem aligned_cases {s a : Nat} (ha : Pow a) : C.aligned s a = .err () ∨ ∃ r, C.aligned s a = .ok r ∧ RoundedUp s a r := by
  unfold Ctx.aligned; split
  · next h => exact .inr ⟨_, rfl, ha.rounded h⟩
  · exact .inl G.overflow

mutual
theorem good_size : ∀ t : RType, t.Generated k →
    t.sizeHint C = .err () ∨ ∃ s a, t.alignHint C = .ok a ∧ t.sizeHint C = .ok s ∧ a ∣ s
  | .prim p, _ => .inr ⟨p.size, p.align, rfl, rfl, by cases p <;> simp [Prim.size, Prim.align]⟩
  | .signed w, _ => .inr ⟨_, _, rfl, rfl, Nat.dvd_refl _⟩
  | .localDef ix, h => G.size ix h
  | .vec _, _ => .inr ⟨24, 8, rfl, rfl, by omega⟩
  | .option t, h => by
    obtain ⟨n, h1⟩ := good_niches G t h
    have e : (RType.option t).sizeHint C = (t.sizeHint C).bind fun s => if 0 < n then .ok s else (t.alignHint C).bind fun a => C.add s a := by
      conv => lhs; unfold RType.sizeHint
      change (t.niches C).bind _ = _
      rw [h1]; rfl
    rcases good_size t h with h2 | ⟨s, a, h2, h3, h4⟩
    · left; rw [e, h2]; rfl
    · rw [e, h3]
      have e' : (RType.option t).alignHint C = t.alignHint C := rfl
      rw [e', h2]
      change (if 0 < n then Outcome.ok s else C.add s a) = _ ∨ ∃ _ _, _ ∧ (if 0 < n then Outcome.ok s else C.add s a) = _ ∧ _
      split
      · exact .inr ⟨s, a, rfl, rfl, h4⟩
      · rcases add_cases G s a with h5 | h5
        · exact .inl h5
        · exact .inr ⟨s + a, a, rfl, h5, Nat.dvd_add h4 (Nat.dvd_refl _)⟩
  | .borrow _ _, _ => .inr ⟨8, 8, rfl, rfl, Nat.dvd_refl _⟩
  | .phantomData _, _ => .inr ⟨0, 1, rfl, rfl, Nat.one_dvd _⟩
  | .tuple ts, h => by
    have e : (RType.tuple ts).sizeHint C = (RType.sizeAll C ts 0 1).bind fun r => C.aligned r.1 r.2 := by
      conv => lhs; unfold RType.sizeHint
      rfl
    obtain ⟨a, h1, h2, _⟩ := good_alignAll G ts h
    have e' : (RType.tuple ts).alignHint C = .ok a := h1
    rcases good_sizeAll ts 0 1 (Nat.le_refl _) h with h3 | ⟨n, b, h3, h4, h5⟩
    · left; rw [e, h3]; rfl
    · rw [e, h3, e']
      rw [h1] at h4; cases h4
      have hp : max 1 a = a := by unfold Pow at h2; omega
      change C.aligned (0 + n) (max 1 a) = _ ∨ ∃ _ _, _ ∧ C.aligned (0 + n) (max 1 a) = _ ∧ _
      rw [hp]
      rcases aligned_cases G (s := 0 + n) h2 with h6 | ⟨r, h6, h7⟩
      · exact .inl h6
      · exact .inr ⟨r, a, rfl, h6, h7.1⟩
  | .readArray, _ => .inr ⟨40, 8, rfl, rfl, by omega⟩
  | .viewObject, _ => .inr ⟨24, 8, rfl, rfl, by omega⟩
  | .external, h => absurd h id
  | .rawSlice _, h => absurd h id
  | .result _ _, h => absurd h id
  | .verbatim, h => absurd h id

theorem good_sizeAll : ∀ (ts : List RType) (s a : Nat), 1 ≤ a → RType.AllGenerated k ts →
    RType.sizeAll C ts s a = .err () ∨
      ∃ n b, RType.sizeAll C ts s a = .ok (s + n, max a b) ∧ RType.alignAll C ts = .ok b ∧ SumOfSizes C ts n
  | [], s, a, ha, _ => .inr ⟨0, 1, by unfold RType.sizeAll; rw [Nat.max_eq_left ha]; rfl, rfl, .nil⟩
  | t :: ts, s, a, ha, h => by
    have e : RType.sizeAll C (t :: ts) s a = (t.sizeHint C).bind fun s' => (C.add s s').bind fun s'' => (t.alignHint C).bind fun a' =>
        RType.sizeAll C ts s'' (max a a') := by
      conv => lhs; unfold RType.sizeAll
      rfl
    rcases good_size t h.1 with h1 | ⟨s', b, h1, h2, _⟩
    · left; rw [e, h1]; rfl
    · rcases add_cases G s s' with h3 | h3
      · left; rw [e, h2]; change (C.add s s').bind _ = _; rw [h3]; rfl
      · have e' : RType.sizeAll C (t :: ts) s a = RType.sizeAll C ts (s + s') (max a b) := by
          rw [e, h2]; change (C.add s s').bind _ = _; rw [h3, h1]; rfl
        rcases good_sizeAll ts (s + s') (max a b) (by omega) h.2 with h4 | ⟨n, c, h4, h5, h6⟩
        · left; rw [e', h4]
        · right
          refine ⟨s' + n, max b c, ?_, ?_, .cons h2 h6⟩
          · rw [e', h4, Nat.add_assoc, Nat.max_assoc]
          · change (t.alignHint C).bind _ = _
            rw [h1]
            change (RType.alignAll C ts).bind _ = _
            rw [h5]; rfl
end

/-- the fields of a `struct` or of a variant -/
theorem good_room (ts : List RType) (h : RType.AllGenerated k ts) :
    (do let (s, a) ← RType.sizeAll C ts 0 1; C.aligned s a : Outcome Unit Nat) = .err () ∨
      ∃ r a, (do let (s, a) ← RType.sizeAll C ts 0 1; C.aligned s a : Outcome Unit Nat) = .ok r ∧ RType.alignAll C ts = .ok a ∧ a ∣ r ∧
        Room C ts r := by
  change (RType.sizeAll C ts 0 1).bind (fun r => C.aligned r.1 r.2) = _ ∨ ∃ _ _, (RType.sizeAll C ts 0 1).bind (fun r => C.aligned r.1 r.2) = _ ∧ _
  obtain ⟨a, h1, h2, h8⟩ := good_alignAll G ts h
  rcases good_sizeAll G ts 0 1 (Nat.le_refl _) h with h3 | ⟨n, b, h3, h4, h5⟩
  · left; rw [h3]; rfl
  · rw [h3]
    rw [h1] at h4; cases h4
    have hp : max 1 a = a := by unfold Pow at h2; omega
    change C.aligned (0 + n) (max 1 a) = _ ∨ ∃ _ _, C.aligned (0 + n) (max 1 a) = _ ∧ _
    rw [hp, Nat.zero_add]
    rcases aligned_cases G (s := n) h2 with h6 | ⟨r, h6, h7⟩
    · exact .inl h6
    · exact .inr ⟨r, a, h6, h1, h7.1, n, a, h5, h8, h7⟩

def _root_.Doodle.TypeAnalysis.RVariant.Gen (k : Nat) (v : RVariant) : Prop := RType.AllGenerated k v.fields

theorem good_vAlign (v : RVariant) (h : v.Gen k) : ∃ a, v.alignHint C = .ok a ∧ Pow a := by
  cases v with
  | unit => exact ⟨1, rfl, by simp [Pow]⟩
  | tuple ts =>
    obtain ⟨a, h1, h2, _⟩ := good_alignAll G ts h
    exact ⟨a, h1, h2⟩

theorem good_vNiches (v : RVariant) (h : v.Gen k) : ∃ a, v.niches C = .ok a := by
  cases v with
  | unit => exact ⟨_, rfl⟩
  | tuple ts =>
    obtain ⟨a, h1⟩ := good_nichesAll G ts h
    refine ⟨nicheProduct a, ?_⟩
    change (RType.nichesAll C ts).bind _ = _
    rw [h1]; rfl

theorem good_vSize (v : RVariant) (h : v.Gen k) : v.sizeHint C = .err () ∨ ∃ r, v.sizeHint C = .ok r ∧ Room C v.fields r := by
  cases v with
  | unit =>
    exact .inr ⟨0, rfl, 0, 1, .nil, ⟨fun _ h => (nomatch h), .inl rfl⟩, Nat.dvd_zero _, Nat.le_refl _, fun _ _ _ => Nat.zero_le _⟩
  | tuple ts =>
    rcases good_room G ts h with h1 | ⟨r, a, h1, _, _, h2⟩
    · exact .inl h1
    · exact .inr ⟨r, h1, h2⟩

theorem good_vAlignMax : ∀ vs : List RVariant, (∀ v ∈ vs, v.Gen k) → ∃ a, RVariant.alignMax C vs = .ok a ∧ Pow a
  | [], _ => ⟨1, rfl, by simp [Pow]⟩
  | v :: vs, h => by
    obtain ⟨a, h1, h2⟩ := good_vAlign G v (h v List.mem_cons_self)
    obtain ⟨b, h3, h4⟩ := good_vAlignMax vs fun v hv => h v (List.mem_cons_of_mem _ hv)
    refine ⟨max a b, ?_, h2.max h4⟩
    change (v.alignHint C).bind _ = _
    rw [h1]
    change (RVariant.alignMax C vs).bind _ = _
    rw [h3]; rfl

theorem good_vNichesAll : ∀ vs : List RVariant, (∀ v ∈ vs, v.Gen k) → ∃ a, RVariant.nichesAll C vs = .ok a
  | [], _ => ⟨_, rfl⟩
  | v :: vs, h => by
    obtain ⟨a, h1⟩ := good_vNiches G v (h v List.mem_cons_self)
    obtain ⟨b, h3⟩ := good_vNichesAll vs fun v hv => h v (List.mem_cons_of_mem _ hv)
    refine ⟨a :: b, ?_⟩
    change (v.niches C).bind _ = _
    rw [h1]
    change (RVariant.nichesAll C vs).bind _ = _
    rw [h3]; rfl

theorem good_vSizeMax : ∀ vs : List RVariant, (∀ v ∈ vs, v.Gen k) →
    RVariant.sizeMax C vs = .err () ∨ ∃ m, RVariant.sizeMax C vs = .ok m ∧ (∀ v ∈ vs, ∃ q, Room C v.fields q ∧ q ≤ m) ∧
      ((vs = [] ∧ m = 0) ∨ ∃ v ∈ vs, Room C v.fields m)
  | [], _ => .inr ⟨0, rfl, fun _ h => (nomatch h), .inl ⟨rfl, rfl⟩⟩
  | v :: vs, h => by
    have e : RVariant.sizeMax C (v :: vs) = (v.sizeHint C).bind fun s => (RVariant.sizeMax C vs).bind fun s' => .ok (max s s') := rfl
    rcases good_vSize G v (h v List.mem_cons_self) with h1 | ⟨r, h1, h2⟩
    · left; rw [e, h1]; rfl
    · rcases good_vSizeMax vs (fun v hv => h v (List.mem_cons_of_mem _ hv)) with h3 | ⟨m, h3, h4, h5⟩
      · left; rw [e, h1]; change (RVariant.sizeMax C vs).bind _ = _; rw [h3]; rfl
      · right
        refine ⟨max r m, ?_, ?_, .inr ?_⟩
        · rw [e, h1]; change (RVariant.sizeMax C vs).bind _ = _; rw [h3]; rfl
        · intro u hu
          rcases List.mem_cons.1 hu with rfl | hu
          · exact ⟨r, h2, by omega⟩
          · obtain ⟨q, hq, hl⟩ := h4 u hu
            exact ⟨q, hq, by omega⟩
        · rcases h5 with ⟨_, rfl⟩ | ⟨u, hu, h5⟩
          · exact ⟨v, List.mem_cons_self, by rw [Nat.max_eq_left (Nat.zero_le _)]; exact h2⟩
          · by_cases hrm : m ≤ r
            · exact ⟨v, List.mem_cons_self, by rw [Nat.max_eq_left hrm]; exact h2⟩
            · exact ⟨u, List.mem_cons_of_mem _ hu, by rw [Nat.max_eq_right (by omega)]; exact h5⟩

omit G in
theorem enum_gen {vs : List RVariant} (h : (TypeDef.enum vs).Generated k) : ∀ v ∈ vs, v.Gen k := fun v hv => by
  cases v with
  | unit => trivial
  | tuple ts => exact h.2 ts hv

theorem good_dAlign (d : TypeDef) (h : d.Generated k) : ∃ a, d.alignHint C = .ok a ∧ Pow a := by
  cases d with
  | struct fs =>
    obtain ⟨a, h1, h2, _⟩ := good_alignAll G fs h
    exact ⟨a, h1, h2⟩
  | enum vs => exact good_vAlignMax G vs (enum_gen h)

theorem good_dNiches (d : TypeDef) (h : d.Generated k) : ∃ a, d.niches C = .ok a := by
  cases d with
  | struct fs =>
    obtain ⟨a, h1⟩ := good_nichesAll G fs h
    refine ⟨nicheProduct a, ?_⟩
    change (RType.nichesAll C fs).bind _ = _
    rw [h1]; rfl
  | enum vs =>
    obtain ⟨a, h1⟩ := good_vNichesAll G vs (enum_gen h)
    refine ⟨nicheSum a, ?_⟩
    change (RVariant.nichesAll C vs).bind _ = _
    rw [h1]; rfl

theorem good_dSize (d : TypeDef) (h : d.Generated k) :
    d.sizeHint C = .err () ∨ ∃ s a, d.alignHint C = .ok a ∧ d.sizeHint C = .ok s ∧ a ∣ s ∧ d.Room C a s := by
  cases d with
  | struct fs =>
    rcases good_room G fs h with h1 | ⟨r, a, h1, h2, h3, h4⟩
    · exact .inl h1
    · exact .inr ⟨r, a, h2, h1, h3, h4⟩
  | enum vs =>
    have e : (TypeDef.enum vs).sizeHint C = (RVariant.sizeMax C vs).bind fun s => (RVariant.alignMax C vs).bind fun a =>
        (C.add s 1).bind fun s' => C.aligned s' a := rfl
    obtain ⟨a, h1, h2⟩ := good_vAlignMax G vs (enum_gen h)
    rcases good_vSizeMax G vs (enum_gen h) with h3 | ⟨m, h3, h4, h5⟩
    · left; rw [e, h3]; rfl
    · have e' : (TypeDef.enum vs).sizeHint C = (C.add m 1).bind fun s' => C.aligned s' a := by rw [e, h3, h1]; rfl
      rcases add_cases G m 1 with h6 | h6
      · left; rw [e', h6]; rfl
      · rw [h6] at e'
        change _ = C.aligned (m + 1) a at e'
        rw [e']
        rcases aligned_cases G (s := m + 1) h2 with h7 | ⟨r, h7, h8⟩
        · exact .inl h7
        · refine .inr ⟨r, a, h1, h7, h8.1, m, h4, ?_, h8⟩
          rcases h5 with ⟨h5, _⟩ | h5
          · exact absurd h5 h.1
          · exact h5

/-! ### `Copy` -/

omit G in
theorem copy_option {t : RType} : IsCopy defs (.option t) ↔ IsCopy defs t := ⟨fun h => by cases h; assumption, .option⟩
omit G in
theorem copy_tuple {ts : List RType} : IsCopy defs (.tuple ts) ↔ ∀ t ∈ ts, IsCopy defs t := ⟨fun h => by cases h; assumption, .tuple⟩

mutual
theorem good_copy : ∀ t : RType, t.Generated k → ∃ b, t.copyHint C = .ok b ∧ (b = true ↔ IsCopy defs t)
  | .prim p, _ => ⟨true, rfl, fun _ => .prim, fun _ => rfl⟩
  | .signed w, _ => ⟨true, rfl, fun _ => .signed, fun _ => rfl⟩
  | .localDef ix, h => G.copy ix h
  | .vec _, _ => ⟨false, rfl, fun h => (nomatch h), fun h => (nomatch h)⟩
  | .option t, h => by
    obtain ⟨b, h1, h2⟩ := good_copy t h
    exact ⟨b, h1, h2.trans copy_option.symm⟩
  | .borrow false _, _ => ⟨true, rfl, fun _ => .shared, fun _ => rfl⟩
  | .phantomData _, _ => ⟨true, rfl, fun _ => .phantomData, fun _ => rfl⟩
  | .tuple ts, h => by
    obtain ⟨b, h1, h2⟩ := good_copyAll ts h
    exact ⟨b, h1, h2.trans copy_tuple.symm⟩
  | .readArray, _ => ⟨true, rfl, fun _ => .readArray, fun _ => rfl⟩
  | .viewObject, _ => ⟨true, rfl, fun _ => .viewObject, fun _ => rfl⟩
  | .borrow true _, h => nomatch h
  | .external, h => absurd h id
  | .rawSlice _, h => absurd h id
  | .result _ _, h => absurd h id
  | .verbatim, h => absurd h id

theorem good_copyAll : ∀ ts : List RType, RType.AllGenerated k ts → ∃ b, RType.copyAll C ts = .ok b ∧ (b = true ↔ ∀ t ∈ ts, IsCopy defs t)
  | [], _ => ⟨true, rfl, fun _ _ h => (nomatch h), fun _ => rfl⟩
  | t :: ts, h => by
    obtain ⟨b, h1, h2⟩ := good_copy t h.1
    obtain ⟨c, h3, h4⟩ := good_copyAll ts h.2
    have e : RType.copyAll C (t :: ts) = (t.copyHint C).bind fun b => if b then RType.copyAll C ts else .ok false := by
      conv => lhs; unfold RType.copyAll
      rfl
    rw [e, h1]
    cases b with
    | false => exact ⟨false, rfl, fun h => (nomatch h), fun h => h2.2 (h t List.mem_cons_self)⟩
    | true =>
      refine ⟨c, h3, h4.trans ⟨fun h u hu => ?_, fun h u hu => h u (List.mem_cons_of_mem _ hu)⟩⟩
      rcases List.mem_cons.1 hu with rfl | hu
      · exact h2.1 rfl
      · exact h u hu
end

theorem good_vCopyAll : ∀ vs : List RVariant, (∀ v ∈ vs, v.Gen k) →
    ∃ b, RVariant.copyAll C vs = .ok b ∧ (b = true ↔ ∀ v ∈ vs, ∀ t ∈ v.fields, IsCopy defs t)
  | [], _ => ⟨true, rfl, fun _ _ h => (nomatch h), fun _ => rfl⟩
  | v :: vs, h => by
    obtain ⟨b, h1, h2⟩ : ∃ b, v.copyHint C = .ok b ∧ (b = true ↔ ∀ t ∈ v.fields, IsCopy defs t) := by
      cases v with
      | unit => exact ⟨true, rfl, fun _ _ h => (nomatch h), fun _ => rfl⟩
      | tuple ts => exact good_copyAll G ts (h _ List.mem_cons_self)
    obtain ⟨c, h3, h4⟩ := good_vCopyAll vs fun v hv => h v (List.mem_cons_of_mem _ hv)
    have e : RVariant.copyAll C (v :: vs) = (v.copyHint C).bind fun b => if b then RVariant.copyAll C vs else .ok false := rfl
    rw [e, h1]
    cases b with
    | false => exact ⟨false, rfl, fun h => (nomatch h), fun h => h2.2 (h v List.mem_cons_self)⟩
    | true =>
      refine ⟨c, h3, h4.trans ⟨fun h u hu => ?_, fun h u hu => h u (List.mem_cons_of_mem _ hu)⟩⟩
      rcases List.mem_cons.1 hu with rfl | hu
      · exact h2.1 rfl
      · exact h u hu

omit G in
theorem parts_enum {vs : List RVariant} {t : RType} : t ∈ (TypeDef.enum vs).parts ↔ ∃ v ∈ vs, t ∈ v.fields := by
  unfold TypeDef.parts
  rw [List.mem_flatMap]
  constructor
  · rintro ⟨v, hv, ht⟩
    refine ⟨v, hv, ?_⟩
    cases v <;> exact ht
  · rintro ⟨v, hv, ht⟩
    refine ⟨v, hv, ?_⟩
    cases v <;> exact ht

theorem good_dCopy (d : TypeDef) (h : d.Generated k) : ∃ b, d.copyHint C = .ok b ∧ (b = true ↔ d.MayDeriveCopy defs) := by
  cases d with
  | struct fs => exact good_copyAll G fs h
  | enum vs =>
    obtain ⟨b, h1, h2⟩ := good_vCopyAll G vs (enum_gen h)
    refine ⟨b, h1, h2.trans ⟨fun h t ht => ?_, fun h v hv t ht => h t (parts_enum.2 ⟨v, hv, ht⟩)⟩⟩
    obtain ⟨v, hv, ht⟩ := parts_enum.1 ht
    exact h v hv t ht

end

theorem good_plain {defs : List TypeDef} (st : Strategy) (h : AllGenerated defs) :
    ∀ n k, k ≤ n → k ≤ defs.length → Good defs (Ctx.plain defs st n) k
  | 0, k, hk, _ => ⟨fun j hj => absurd hj (by omega), fun j hj => absurd hj (by omega), fun j hj => absurd hj (by omega),
      fun j hj => absurd hj (by omega), rfl, rfl⟩
  | n + 1, k, hk, hl => by
    have get : ∀ j, j < k → ∃ d, defs[j]? = some d ∧ d.Generated j ∧ Good defs (Ctx.plain defs st n) j := fun j hj => by
      have e : defs[j]? = some defs[j] := List.getElem?_eq_getElem (by omega)
      exact ⟨_, e, h j _ e, good_plain st h n j (by omega) (by omega)⟩
    refine ⟨fun j hj => ?_, fun j hj => ?_, fun j hj => ?_, fun j hj => ?_, rfl, rfl⟩
    · obtain ⟨d, e, g, G⟩ := get j hj
      change ∃ a, (match defs[j]? with | some d => TypeDef.alignHint (Ctx.plain defs st n) d | none => Outcome.panic) = _ ∧ _
      rw [e]; exact good_dAlign G d g
    · obtain ⟨d, e, g, G⟩ := get j hj
      change ∃ a, (match defs[j]? with | some d => TypeDef.niches (Ctx.plain defs st n) d | none => Outcome.panic) = _
      rw [e]; exact good_dNiches G d g
    · obtain ⟨d, e, g, G⟩ := get j hj
      change (match defs[j]? with | some d => TypeDef.sizeHint (Ctx.plain defs st n) d | none => Outcome.panic) = _ ∨
        ∃ s a, (match defs[j]? with | some d => TypeDef.alignHint (Ctx.plain defs st n) d | none => Outcome.panic) = _ ∧
          (match defs[j]? with | some d => TypeDef.sizeHint (Ctx.plain defs st n) d | none => Outcome.panic) = _ ∧ _
      rw [e]
      rcases good_dSize G d g with h1 | ⟨s, a, h1, h2, h3, _⟩
      · exact .inl h1
      · exact .inr ⟨s, a, h1, h2, h3⟩
    · obtain ⟨d, e, g, G⟩ := get j hj
      change ∃ a, (match defs[j]? with | some d => TypeDef.copyHint (Ctx.plain defs st n) d | none => Outcome.panic) = _ ∧ _
      rw [e]
      obtain ⟨b, h1, h2⟩ := good_dCopy G d g
      refine ⟨b, h1, h2.trans ⟨fun h => .localDef e h, fun h => ?_⟩⟩
      cases h with
      | localDef e' h' => rw [e] at e'; cases e'; exact h'

end TypeAnalysis
end Doodle
