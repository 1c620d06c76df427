/-
Property C108: what is printed determines what was printed.
-/
import Verif.Model.Print
import Verif.Lemmas.Decode
import Verif.Props.Scalar

namespace Verif.Props
open Verif Verif.Print

/-- Not a digit. -/
def NonDigit (c : UInt8) : Prop := c.toNat < 48 ∨ 57 < c.toNat

theorem dec_split {m n : ℕ} {c c' : UInt8} {r r' : Bytes} (hc : NonDigit c) (hc' : NonDigit c')
    (h : decBytes m ++ c :: r = decBytes n ++ c' :: r') : m = n ∧ c = c' ∧ r = r' := by
  have key : ∀ (A A' : Bytes), (∀ x ∈ A, 48 ≤ x.toNat ∧ x.toNat ≤ 57) → (∀ x ∈ A', 48 ≤ x.toNat ∧ x.toNat ≤ 57) →
      A ++ c :: r = A' ++ c' :: r' → A = A' ∧ c = c' ∧ r = r' := by
    intro A
    induction A with
    | nil =>
      intro A' _ hA' h
      cases A' with
      | nil => simpa using h
      | cons x A' =>
        simp only [List.nil_append, List.cons_append, List.cons.injEq] at h
        have := hA' x (by simp)
        rw [← h.1] at this
        unfold NonDigit at hc
        omega
    | cons x A ih =>
      intro A' hA hA' h
      cases A' with
      | nil =>
        simp only [List.nil_append, List.cons_append, List.cons.injEq] at h
        have := hA x (by simp)
        rw [h.1] at this
        unfold NonDigit at hc'
        omega
      | cons x' A' =>
        simp only [List.cons_append, List.cons.injEq] at h
        obtain ⟨h1, h2, h3⟩ := ih A' (fun y hy => hA y (by simp [hy])) (fun y hy => hA' y (by simp [hy])) h.2
        exact ⟨by rw [h.1, h1], h2, h3⟩
  obtain ⟨h1, h2, h3⟩ := key _ _ (decBytes_digits m) (decBytes_digits n) h
  exact ⟨decBytes_inj m n h1, h2, h3⟩

theorem dec_head (n : ℕ) (r : Bytes) : ∃ c t, decBytes n ++ r = c :: t ∧ ¬NonDigit c := by
  cases h : decBytes n with
  | nil => exact absurd h (decBytes_ne_nil n)
  | cons c t =>
    refine ⟨c, t ++ r, rfl, ?_⟩
    have := decBytes_digits n c (by rw [h]; simp)
    unfold NonDigit
    omega

theorem nd45 : NonDigit 45 := Or.inl (by decide)
theorem nd32 : NonDigit 32 := Or.inl (by decide)
theorem nd44 : NonDigit 44 := Or.inl (by decide)
theorem nd93 : NonDigit 93 := Or.inr (by decide)
theorem nd125 : NonDigit 125 := Or.inr (by decide)

theorem int_split {z y : ℤ} {c c' : UInt8} {r r' : Bytes} (hc : NonDigit c) (hc' : NonDigit c')
    (h : intBytes z ++ c :: r = intBytes y ++ c' :: r') : z = y ∧ c = c' ∧ r = r' := by
  unfold intBytes at h
  split at h <;> split at h
  · simp only [List.cons_append, List.cons.injEq, true_and] at h
    obtain ⟨h1, h2⟩ := dec_split hc hc' h
    exact ⟨by omega, h2⟩
  · obtain ⟨d, t, hd, hn⟩ := dec_head y.natAbs (c' :: r')
    rw [hd, List.cons_append, List.cons.injEq] at h
    exact absurd (h.1 ▸ nd45) hn
  · obtain ⟨d, t, hd, hn⟩ := dec_head z.natAbs (c :: r)
    rw [hd, List.cons_append, List.cons.injEq] at h
    exact absurd (h.1 ▸ nd45) hn
  · obtain ⟨h1, h2⟩ := dec_split hc hc' h
    exact ⟨by omega, h2⟩

theorem int_head (z : ℤ) (r : Bytes) : ∃ c t, intBytes z ++ r = c :: t ∧ (c = 45 ∨ ¬NonDigit c) := by
  unfold intBytes
  split
  · exact ⟨45, _, rfl, Or.inl rfl⟩
  · obtain ⟨c, t, h, hn⟩ := dec_head z.natAbs r
    exact ⟨c, t, h, Or.inr hn⟩

theorem balancedBytes_eq (a b : Bytes) : balancedBytes a = balancedBytes b ↔ Sc.leVal a % Regev.P = Sc.leVal b % Regev.P := by
  unfold balancedBytes
  constructor
  · intro h
    have := congrArg (fun z : ℤ => (z : ZMod Regev.P)) h
    simp only [Regev.balanced_cast] at this
    exact (ZMod.natCast_eq_natCast_iff' _ _ _).1 this
  · intro h
    rw [(ZMod.natCast_eq_natCast_iff' _ _ _).2 h]

theorem entries_split : ∀ (v w : List (ℕ × Bytes)) (r r' : Bytes), ppEntries v ++ 93 :: r = ppEntries w ++ 93 :: r' →
    v.map (fun x => (x.1, Sc.leVal x.2 % Regev.P)) = w.map (fun x => (x.1, Sc.leVal x.2 % Regev.P)) ∧ r = r' := by
  intro v
  induction v with
  | nil =>
    intro w r r' h
    cases w with
    | nil => simpa [ppEntries] using h
    | cons y w =>
      simp only [ppEntries, List.flatMap_nil, List.nil_append, List.flatMap_cons, List.append_assoc] at h
      obtain ⟨d, t, hd, hn⟩ := dec_head y.1 ([45, 62] ++ (intBytes (balancedBytes y.2) ++ ([44, 32] ++
        ((w.flatMap fun x => decBytes x.1 ++ ([45, 62] ++ (intBytes (balancedBytes x.2) ++ [44, 32]))) ++ 93 :: r'))))
      rw [hd, List.cons.injEq] at h
      exact absurd (h.1 ▸ nd93) hn
  | cons x v ih =>
    intro w r r' h
    cases w with
    | nil =>
      simp only [ppEntries, List.flatMap_nil, List.nil_append, List.flatMap_cons, List.append_assoc] at h
      obtain ⟨d, t, hd, hn⟩ := dec_head x.1 ([45, 62] ++ (intBytes (balancedBytes x.2) ++ ([44, 32] ++
        ((v.flatMap fun x => decBytes x.1 ++ ([45, 62] ++ (intBytes (balancedBytes x.2) ++ [44, 32]))) ++ 93 :: r))))
      rw [hd, List.cons.injEq] at h
      exact absurd (h.1 ▸ nd93) hn
    | cons y w =>
      have e : ∀ (x : ℕ × Bytes) (v : List (ℕ × Bytes)) (r : Bytes), ppEntries (x :: v) ++ 93 :: r =
          decBytes x.1 ++ 45 :: 62 :: (intBytes (balancedBytes x.2) ++ 44 :: 32 :: (ppEntries v ++ 93 :: r)) := by
        intro x v r
        simp [ppEntries]
      rw [e, e] at h
      obtain ⟨h1, -, h2⟩ := dec_split nd45 nd45 h
      obtain ⟨h3, -, h4⟩ := int_split nd44 nd44 (List.cons.inj h2).2
      obtain ⟨h5, h6⟩ := ih w r r' (List.cons.inj h4).2
      refine ⟨?_, h6⟩
      rw [List.map_cons, List.map_cons, h1, (balancedBytes_eq _ _).1 h3, h5]

theorem sizes_split : ∀ (v w : List ℕ) (d : UInt8) (_ : NonDigit d) (r r' : Bytes),
    (v.flatMap fun i => decBytes i ++ [32]) ++ d :: r = (w.flatMap fun i => decBytes i ++ [32]) ++ d :: r' → v = w ∧ r = r' := by
  intro v
  induction v with
  | nil =>
    intro w d hd r r' h
    cases w with
    | nil => simpa using h
    | cons y w =>
      simp only [List.flatMap_nil, List.nil_append, List.flatMap_cons, List.append_assoc] at h
      obtain ⟨c, t, hc, hn⟩ := dec_head y ([32] ++ ((w.flatMap fun i => decBytes i ++ [32]) ++ d :: r'))
      rw [hc, List.cons.injEq] at h
      exact absurd (h.1 ▸ hd) hn
  | cons x v ih =>
    intro w d hd r r' h
    cases w with
    | nil =>
      simp only [List.flatMap_nil, List.nil_append, List.flatMap_cons, List.append_assoc] at h
      obtain ⟨c, t, hc, hn⟩ := dec_head x ([32] ++ ((v.flatMap fun i => decBytes i ++ [32]) ++ d :: r))
      rw [hc, List.cons.injEq] at h
      exact absurd (h.1 ▸ hd) hn
    | cons y w =>
      simp only [List.flatMap_cons, List.append_assoc, List.singleton_append] at h
      obtain ⟨h1, -, h2⟩ := dec_split nd32 nd32 h
      obtain ⟨h3, h4⟩ := ih w d hd r r' h2
      exact ⟨by rw [h1, h3], h4⟩

theorem ints_split : ∀ (v w : List ℤ) (r r' : Bytes),
    (v.flatMap fun i => intBytes i ++ [32]) ++ 125 :: r = (w.flatMap fun i => intBytes i ++ [32]) ++ 125 :: r' → v = w ∧ r = r' := by
  intro v
  induction v with
  | nil =>
    intro w r r' h
    cases w with
    | nil => simpa using h
    | cons y w =>
      simp only [List.flatMap_nil, List.nil_append, List.flatMap_cons, List.append_assoc] at h
      obtain ⟨c, t, hc, hn⟩ := int_head y ([32] ++ ((w.flatMap fun i => intBytes i ++ [32]) ++ 125 :: r'))
      rw [hc, List.cons.injEq] at h
      rcases hn with hn | hn
      · exact absurd (h.1.trans hn) (by decide)
      · exact absurd (h.1 ▸ nd125) hn
  | cons x v ih =>
    intro w r r' h
    cases w with
    | nil =>
      simp only [List.flatMap_nil, List.nil_append, List.flatMap_cons, List.append_assoc] at h
      obtain ⟨c, t, hc, hn⟩ := int_head x ([32] ++ ((v.flatMap fun i => intBytes i ++ [32]) ++ 125 :: r))
      rw [hc, List.cons.injEq] at h
      rcases hn with hn | hn
      · exact absurd (h.1.symm.trans hn) (by decide)
      · exact absurd (h.1 ▸ nd125) hn
    | cons y w =>
      simp only [List.flatMap_cons, List.append_assoc, List.singleton_append] at h
      obtain ⟨h1, -, h2⟩ := int_split nd32 nd32 h
      obtain ⟨h3, h4⟩ := ih w r r' h2
      exact ⟨by rw [h1, h3], h4⟩

/-- **C108, vectors.** Two vectors of named scalars are printed alike, whatever is printed after them, exactly when they have the same names in the
same order and scalars that are equal modulo the group order. -/
theorem C108_vector (v w : List (ℕ × Bytes)) (r r' : Bytes) :
    ppPtxtVec v ++ r = ppPtxtVec w ++ r' ↔
      v.map (fun x => (x.1, Sc.leVal x.2 % Regev.P)) = w.map (fun x => (x.1, Sc.leVal x.2 % Regev.P)) ∧ r = r' := by
  constructor
  · intro h
    simp only [ppPtxtVec, List.append_assoc, List.singleton_append, List.cons_append, List.cons.injEq, true_and] at h
    exact entries_split v w r r' h
  · rintro ⟨h, rfl⟩
    have : ∀ v w : List (ℕ × Bytes), v.map (fun x => (x.1, Sc.leVal x.2 % Regev.P)) = w.map (fun x => (x.1, Sc.leVal x.2 % Regev.P)) →
        ppEntries v = ppEntries w := by
      intro v
      induction v with
      | nil => intro w h; cases w with
        | nil => rfl
        | cons y w => simp at h
      | cons x v ih =>
        intro w h
        cases w with
        | nil => simp at h
        | cons y w =>
          simp only [List.map_cons, List.cons.injEq, Prod.mk.injEq] at h
          have h1 := ih w h.2
          unfold ppEntries at h1 ⊢
          rw [List.flatMap_cons, List.flatMap_cons, h1, h.1.1, (balancedBytes_eq _ _).2 h.1.2]
    rw [ppPtxtVec, ppPtxtVec, this v w h]

/-- **C108, linear constraints.** The same for linear constraints. -/
theorem C108_linear (c d : LinConstraint Bytes) (r r' : Bytes) :
    ppLin c ++ r = ppLin d ++ r' ↔
      c.terms.map (fun x => (x.1, Sc.leVal x.2 % Regev.P)) = d.terms.map (fun x => (x.1, Sc.leVal x.2 % Regev.P)) ∧
      Sc.leVal c.equalsTo % Regev.P = Sc.leVal d.equalsTo % Regev.P ∧ r = r' := by
  have e : ∀ (c : LinConstraint Bytes) (r : Bytes), ppLin c ++ r =
      123 :: (ppPtxtVec c.terms ++ (44 :: 32 :: (intBytes (balancedBytes c.equalsTo) ++ 125 :: r))) := by
    intro c r
    simp [ppLin]
  rw [e, e, List.cons.injEq]
  constructor
  · rintro ⟨-, h⟩
    obtain ⟨h1, h2⟩ := (C108_vector _ _ _ _).1 h
    obtain ⟨h3, -, h4⟩ := int_split nd125 nd125 (List.cons.inj (List.cons.inj h2).2).2
    exact ⟨h1, (balancedBytes_eq _ _).1 h3, h4⟩
  · rintro ⟨h1, h2, rfl⟩
    exact ⟨rfl, (C108_vector _ _ _ _).2 ⟨h1, by rw [(balancedBytes_eq _ _).2 h2]⟩⟩

/-- **C108, quadratic constraints.** The same for quadratic constraints. -/
theorem C108_quadratic (c d : QuadConstraint Bytes) (r r' : Bytes) :
    ppQuad c ++ r = ppQuad d ++ r' ↔
      c.indexes = d.indexes ∧ Sc.leVal c.equalsTo % Regev.P = Sc.leVal d.equalsTo % Regev.P ∧ r = r' := by
  have e : ∀ (c : QuadConstraint Bytes) (r : Bytes), ppQuad c ++ r =
      123 :: 91 :: ((c.indexes.flatMap fun i => decBytes i ++ [32]) ++
        93 :: (44 :: 32 :: (intBytes (balancedBytes c.equalsTo) ++ 125 :: r))) := by
    intro c r
    simp [ppQuad]
  rw [e, e, List.cons.injEq, List.cons.injEq]
  constructor
  · rintro ⟨-, -, h⟩
    obtain ⟨h1, h2⟩ := sizes_split _ _ 93 nd93 _ _ h
    obtain ⟨h3, -, h4⟩ := int_split nd125 nd125 (List.cons.inj (List.cons.inj h2).2).2
    exact ⟨h1, (balancedBytes_eq _ _).1 h3, h4⟩
  · rintro ⟨h1, h2, rfl⟩
    exact ⟨rfl, rfl, by rw [h1, (balancedBytes_eq _ _).2 h2]⟩

/-- **C108, sets.** Sets of integers (negative ones included) and of indexes are printed alike, whatever follows, only if they are equal. -/
theorem C108_sets :
    (∀ (s t : List ℤ) (r r' : Bytes), ppInts s ++ r = ppInts t ++ r' → s = t ∧ r = r') ∧
    (∀ (s t : List ℕ) (r r' : Bytes), ppSizes s ++ r = ppSizes t ++ r' → s = t ∧ r = r') := by
  constructor
  · intro s t r r' h
    simp only [ppInts, List.append_assoc, List.singleton_append, List.cons_append, List.cons.injEq, true_and] at h
    exact ints_split s t r r' h
  · intro s t r r' h
    simp only [ppSizes, List.append_assoc, List.singleton_append, List.cons_append, List.cons.injEq, true_and] at h
    exact sizes_split s t 125 nd125 r r' h

/-- **C108, the number printed for a scalar.** It is the integer nearest to zero among those equal to the scalar modulo the order. -/
theorem C108_value (b : Bytes) : ((balancedBytes b : ℤ) : ZMod Regev.P) = (Sc.leVal b : ZMod Regev.P) ∧
    2 * |balancedBytes b| < Regev.P ∧ ∀ z : ℤ, (z : ZMod Regev.P) = (Sc.leVal b : ZMod Regev.P) → |balancedBytes b| ≤ |z| := by
  have h1 : ((balancedBytes b : ℤ) : ZMod Regev.P) = (Sc.leVal b : ZMod Regev.P) := Regev.balanced_cast _
  have h2 : 2 * |balancedBytes b| < Regev.P := by
    have hodd : Regev.P % 2 = 1 := by decide +kernel
    unfold balancedBytes balanced
    have hlt := ZMod.val_lt ((Sc.leVal b : ℕ) : ZMod Regev.P)
    generalize ((Sc.leVal b : ℕ) : ZMod Regev.P).val = v at hlt
    generalize Regev.P = p at hlt hodd
    split
    · rw [abs_of_neg (by omega)]; omega
    · rw [abs_of_nonneg (by omega)]; omega
  refine ⟨h1, h2, fun z hz => ?_⟩
  by_contra hc
  push Not at hc
  have hd : ((balancedBytes b - z : ℤ) : ZMod Regev.P) = 0 := by
    rw [Int.cast_sub, h1, hz, sub_self]
  rw [ZMod.intCast_zmod_eq_zero_iff_dvd] at hd
  have habs : |balancedBytes b - z| < Regev.P := by
    have := abs_sub (balancedBytes b) z
    omega
  have h0 := Int.eq_zero_of_abs_lt_dvd hd habs
  rw [sub_eq_zero] at h0
  rw [h0] at hc
  exact lt_irrefl _ hc

/-! ### Vectors and elements of algebra.hpp -/

/-- The entries separated by spaces. -/
def joined {α : Type} (f : α → Bytes) : List α → Bytes
  | [] => []
  | [x] => f x
  | x :: y :: v => f x ++ 32 :: joined f (y :: v)

theorem printLoop_eq {α : Type} (f : α → Bytes) (v : List α) : ∀ (k i : ℕ) (h : i + k < v.length),
    printLoop f v k i = .ok (((v.drop i).take k).flatMap fun x => f x ++ [32]) := by
  intro k
  induction k with
  | zero => intro i _; simp [printLoop]
  | succ k ih =>
    intro i h
    have hi : i < v.length := by omega
    rw [printLoop, rd_ok hi, Res.ok_bind, ih (i + 1) (by omega), Res.ok_bind, List.drop_eq_getElem_cons hi, List.take_succ_cons,
      List.flatMap_cons]

theorem joined_eq {α : Type} (f : α → Bytes) : ∀ (v : List α) (x : α),
    (v.flatMap fun x => f x ++ [32]) ++ f x = joined f (v ++ [x]) := by
  intro v
  induction v with
  | nil => intro x; simp [joined]
  | cons y v ih =>
    intro x
    rw [List.flatMap_cons, List.append_assoc, ih x]
    cases v with
    | nil => simp [joined]
    | cons z v => simp [joined]

theorem printVec_eq {α : Type} (f : α → Bytes) (v : List α) (h0 : v ≠ []) (h : v.length < 2 ^ 63) :
    printVec f v = .ok ([91] ++ joined f v ++ [93]) := by
  have hpos : 0 < v.length := List.length_pos_iff.2 h0
  have hl : lastIndex v.length = v.length - 1 := by
    unfold lastIndex
    rw [show v.length + (2 ^ 64 - 1) = v.length - 1 + 2 ^ 64 by omega, Nat.add_mod_right, Nat.mod_eq_of_lt (by omega)]
  rw [printVec, hl, printLoop_eq f v _ 0 (by omega), Res.ok_bind, rd_ok (by omega), Res.ok_bind, List.drop_zero]
  have ht := List.take_append_getElem (l := v) (i := v.length - 1) (by omega)
  have hj := joined_eq f (v.take (v.length - 1)) v[v.length - 1]
  have he : v.take (v.length - 1 + 1) = v := List.take_of_length_le (by omega)
  rw [ht, he] at hj
  rw [← hj, List.append_assoc [91]]

theorem printVec_empty {α : Type} (f : α → Bytes) : printVec f [] = .ub := by
  have h0 : lastIndex 0 = 2 ^ 64 - 2 + 1 := by norm_num [lastIndex]
  have hl : lastIndex ([] : List α).length = 2 ^ 64 - 2 + 1 := h0
  rw [printVec, hl, printLoop]
  rfl

/-- entries can be told apart from what follows -/
def Readable {α : Type} (f : α → Bytes) : Prop :=
  ∀ x y r r', ∀ c ∈ ([32, 93] : Bytes), ∀ c' ∈ ([32, 93] : Bytes), f x ++ c :: r = f y ++ c' :: r' → x = y ∧ c = c' ∧ r = r'

theorem joined_split {α : Type} (f : α → Bytes) (hf : Readable f) : ∀ (v w : List α), v ≠ [] → w ≠ [] → ∀ r r',
    joined f v ++ 93 :: r = joined f w ++ 93 :: r' → v = w ∧ r = r' := by
  intro v
  induction v with
  | nil => intro w h; exact absurd rfl h
  | cons x v ih =>
    intro w _ hw r r' h
    cases w with
    | nil => exact absurd rfl hw
    | cons y w =>
      cases v with
      | nil =>
        cases w with
        | nil =>
          obtain ⟨h1, -, h2⟩ := hf x y r r' 93 (by simp) 93 (by simp) h
          exact ⟨by rw [h1], h2⟩
        | cons z w =>
          simp only [joined, List.append_assoc, List.cons_append] at h
          obtain ⟨-, h1, -⟩ := hf x y _ _ 93 (by simp) 32 (by simp) h
          exact absurd h1 (by decide)
      | cons z v =>
        cases w with
        | nil =>
          simp only [joined, List.append_assoc, List.cons_append] at h
          obtain ⟨-, h1, -⟩ := hf x y _ _ 32 (by simp) 93 (by simp) h
          exact absurd h1 (by decide)
        | cons z' w =>
          simp only [joined, List.append_assoc, List.cons_append] at h
          obtain ⟨h1, -, h2⟩ := hf x y _ _ 32 (by simp) 32 (by simp) h
          obtain ⟨h3, h4⟩ := ih (z' :: w) (by simp) (by simp) r r' h2
          exact ⟨by rw [h1, h3], h4⟩

theorem scalar_readable {q : ℕ} [NeZero q] : Readable (printScalar (q := q)) := by
  intro x y r r' c hc c' hc' h
  have e : ∀ s : ZMod q, printScalar s = intBytes (balanced s) := by
    intro s
    unfold printScalar balanced
    split <;> rfl
  have hn : ∀ c ∈ ([32, 93] : Bytes), NonDigit c := by
    intro c hc
    simp only [List.mem_cons, List.not_mem_nil, or_false] at hc
    rcases hc with rfl | rfl
    · exact nd32
    · exact nd93
  rw [e, e] at h
  obtain ⟨h1, h2⟩ := int_split (hn c hc) (hn c' hc') h
  refine ⟨?_, h2⟩
  rw [← Regev.balanced_cast x, h1, Regev.balanced_cast]

theorem printElement_eq {q ell : ℕ} (hl : 1 ≤ ell) (e : Elt (ZMod q) ell) :
    printElement e = [91] ++ joined printScalar (List.ofFn e.c) ++ [93] := by
  obtain ⟨n, rfl⟩ : ∃ n, ell = n + 1 := ⟨ell - 1, by omega⟩
  have hlen : n < (List.ofFn e.c).length := by simp
  have hd : (List.ofFn e.c).drop n = [(List.ofFn e.c)[n]] := by
    rw [List.drop_eq_getElem_cons hlen, List.drop_of_length_le (by simp)]
  have := List.take_append_getElem (l := List.ofFn e.c) (i := n) hlen
  rw [printElement, Nat.add_sub_cancel, hd, List.flatMap_singleton, List.append_assoc [91], joined_eq, this,
    List.take_of_length_le (by simp)]

theorem element_readable {q ell : ℕ} [NeZero q] (hl : 1 ≤ ell) : Readable (printElement (q := q) (ell := ell)) := by
  intro x y r r' c _ c' _ h
  rw [printElement_eq hl, printElement_eq hl] at h
  simp only [List.append_assoc, List.singleton_append, List.cons_append, List.cons.injEq, true_and] at h
  have hne : ∀ e : Elt (ZMod q) ell, List.ofFn e.c ≠ [] := by
    intro e he
    have := congrArg List.length he
    simp at this
    omega
  obtain ⟨h1, h2⟩ := joined_split _ scalar_readable _ _ (hne x) (hne y) _ _ h
  obtain ⟨h3, h4⟩ := List.cons.inj h2
  exact ⟨Elt.ext (List.ofFn_injective h1), h3, h4⟩

/-- **C108, vectors of scalars and of ring elements.** Printing a vector that is not empty succeeds, and the text, whatever follows, determines the
vector (and so for a single element). -/
theorem C108_printVec {q ell : ℕ} [NeZero q] (hl : 1 ≤ ell) :
    (∀ v : List (ZMod q), v ≠ [] → v.length < 2 ^ 63 → ∃ t, printSvec v = .ok t ∧
      ∀ w, w ≠ [] → w.length < 2 ^ 63 → ∀ t', printSvec w = .ok t' → ∀ r r', t ++ r = t' ++ r' → v = w ∧ r = r') ∧
    (∀ v : List (Elt (ZMod q) ell), v ≠ [] → v.length < 2 ^ 63 → ∃ t, printEvec v = .ok t ∧
      ∀ w, w ≠ [] → w.length < 2 ^ 63 → ∀ t', printEvec w = .ok t' → ∀ r r', t ++ r = t' ++ r' → v = w ∧ r = r') ∧
    (∀ (a b : Elt (ZMod q) ell) (r r' : Bytes), printElement a ++ r = printElement b ++ r' → a = b ∧ r = r') := by
  have key : ∀ {α : Type} (f : α → Bytes) (_ : Readable f) (v : List α), v ≠ [] → v.length < 2 ^ 63 → ∃ t, printVec f v = .ok t ∧
      ∀ w, w ≠ [] → w.length < 2 ^ 63 → ∀ t', printVec f w = .ok t' → ∀ r r', t ++ r = t' ++ r' → v = w ∧ r = r' := by
    intro α f hf v h0 h
    refine ⟨_, printVec_eq f v h0 h, fun w h0' h' t' ht r r' he => ?_⟩
    rw [printVec_eq f w h0' h'] at ht
    rw [← Res.ok.inj ht] at he
    simp only [List.append_assoc, List.singleton_append, List.cons_append, List.cons.injEq, true_and] at he
    exact joined_split f hf v w h0 h0' r r' he
  refine ⟨key _ scalar_readable, key _ (element_readable hl), fun a b r r' h => ?_⟩
  rw [printElement_eq hl, printElement_eq hl] at h
  simp only [List.append_assoc, List.singleton_append, List.cons_append, List.cons.injEq, true_and] at h
  have hne : ∀ e : Elt (ZMod q) ell, List.ofFn e.c ≠ [] := by
    intro e he
    have := congrArg List.length he
    simp at this
    omega
  obtain ⟨h1, h2⟩ := joined_split _ scalar_readable _ _ (hne a) (hne b) _ _ h
  exact ⟨Elt.ext (List.ofFn_injective h1), h2⟩

/-- **C108, the number printed by `printScalar`.** Modulo an odd number it is the integer nearest to zero among those equal to the scalar. -/
theorem C108_printScalar {q : ℕ} (hq : q % 2 = 1) (s : ZMod q) : ∃ z : ℤ, printScalar s = intBytes z ∧ (z : ZMod q) = s ∧
    2 * |z| < q ∧ ∀ y : ℤ, (y : ZMod q) = s → |z| ≤ |y| := by
  have hne : NeZero q := ⟨by omega⟩
  have h1 : ((balanced s : ℤ) : ZMod q) = s := Regev.balanced_cast s
  have h2 : 2 * |balanced s| < q := by
    unfold balanced
    have hlt := ZMod.val_lt s
    split
    · rw [abs_of_neg (by omega)]; omega
    · rw [abs_of_nonneg (by omega)]; omega
  refine ⟨balanced s, ?_, h1, h2, fun y hy => ?_⟩
  · unfold printScalar balanced
    split <;> rfl
  by_contra hc
  push Not at hc
  have hd : ((balanced s - y : ℤ) : ZMod q) = 0 := by
    rw [Int.cast_sub, h1, hy, sub_self]
  rw [ZMod.intCast_zmod_eq_zero_iff_dvd] at hd
  have habs : |balanced s - y| < q := by
    have := abs_sub (balanced s) y
    omega
  have h0 := Int.eq_zero_of_abs_lt_dvd hd habs
  rw [sub_eq_zero] at h0
  rw [h0] at hc
  exact lt_irrefl _ hc

/-- **C108, numbers.** The text of a number is a minus sign if it is negative, and decimal digits that make up its absolute value. -/
theorem C108_number (z : ℤ) : ∃ d : Bytes, intBytes z = (if z < 0 then [45] else []) ++ d ∧ d ≠ [] ∧
    (∀ c ∈ d, 48 ≤ c.toNat ∧ c.toNat ≤ 57) ∧ d.foldl (fun n c => 10 * n + (c.toNat - 48)) 0 = z.natAbs := by
  refine ⟨decBytes z.natAbs, ?_, decBytes_ne_nil _, decBytes_digits _, ?_⟩
  · unfold intBytes
    split <;> rfl
  · have key : ∀ n, (decBytes n).foldl (fun n c => 10 * n + (c.toNat - 48)) 0 = n := by
      intro n
      induction n using Nat.strongRecOn with
      | _ n ih =>
        rw [decBytes]
        split
        · next h =>
          have : (48 + n) % 256 = 48 + n := Nat.mod_eq_of_lt (by omega)
          simp [this]
        · next h =>
          have : (48 + n % 10) % 256 = 48 + n % 10 := Nat.mod_eq_of_lt (by omega)
          rw [List.foldl_append, ih (n / 10) (by omega)]
          simp [this]
          omega
    exact key _

/-- **C108, empty vectors.** Printing an empty vector reads outside of it. -/
theorem C108_printVec_empty (q ell : ℕ) :
    printSvec ([] : List (ZMod q)) = .ub ∧ printEvec ([] : List (Elt (ZMod q) ell)) = .ub :=
  ⟨printVec_empty _, printVec_empty _⟩

/-! ### `debugPrint` -/

theorem debug_split : ∀ (v w : List (ℕ × Bytes)) (r r' : Bytes),
    (v.flatMap fun t => [32, 32] ++ decBytes t.1 ++ [45, 62] ++ decBytes (t.2.getD 0 0).toNat ++ [46, 46, 46, 10]) ++ 93 :: r =
      (w.flatMap fun t => [32, 32] ++ decBytes t.1 ++ [45, 62] ++ decBytes (t.2.getD 0 0).toNat ++ [46, 46, 46, 10]) ++ 93 :: r' →
    v.map (fun x => (x.1, x.2.getD 0 0)) = w.map (fun x => (x.1, x.2.getD 0 0)) ∧ r = r' := by
  have nd46 : NonDigit 46 := Or.inl (by decide)
  intro v
  induction v with
  | nil =>
    intro w r r' h
    cases w with
    | nil => simpa using h
    | cons y w => simp at h
  | cons x v ih =>
    intro w r r' h
    cases w with
    | nil => simp at h
    | cons y w =>
      simp only [List.flatMap_cons, List.append_assoc, List.cons_append, List.nil_append, List.cons.injEq, true_and] at h
      obtain ⟨h1, -, h2⟩ := dec_split nd45 nd45 h
      obtain ⟨h3, -, h4⟩ := dec_split nd46 nd46 (List.cons.inj h2).2
      simp only [List.cons.injEq, true_and] at h4
      obtain ⟨h5, h6⟩ := ih w r r' (by simpa only [List.append_assoc, List.cons_append, List.nil_append] using h4)
      refine ⟨?_, h6⟩
      rw [List.map_cons, List.map_cons, h1, UInt8.toNat_inj.1 h3, h5]

/-- **C108, `debugPrint`.** It shows the names and of each scalar the first byte (the first two bytes of the constant of a quadratic constraint),
and nothing else. -/
theorem C108_debugPrint :
    (∀ c d : LinConstraint Bytes, debugLin c = debugLin d ↔
      c.terms.map (fun x => (x.1, x.2.getD 0 0)) = d.terms.map (fun x => (x.1, x.2.getD 0 0)) ∧
        c.equalsTo.getD 0 0 = d.equalsTo.getD 0 0) ∧
    (∀ c d : QuadConstraint Bytes, debugQuad c = debugQuad d ↔
      c.indexes = d.indexes ∧ c.equalsTo.getD 0 0 = d.equalsTo.getD 0 0 ∧ c.equalsTo.getD 1 0 = d.equalsTo.getD 1 0) := by
  have nd46 : NonDigit 46 := Or.inl (by decide)
  constructor
  · intro c d
    constructor
    · intro h
      simp only [debugLin, List.append_assoc, List.cons_append, List.nil_append, List.cons.injEq, true_and] at h
      obtain ⟨h1, h2⟩ := debug_split c.terms d.terms _ _ (by
        simpa only [List.append_assoc, List.cons_append, List.nil_append] using h)
      obtain ⟨h3, -⟩ := dec_split nd46 nd46 (List.cons.inj (List.cons.inj h2).2).2
      exact ⟨h1, UInt8.toNat_inj.1 h3⟩
    · rintro ⟨h1, h2⟩
      have hm : ∀ v : List (ℕ × Bytes), (v.flatMap fun t => [32, 32] ++ decBytes t.1 ++ [45, 62] ++ decBytes (t.2.getD 0 0).toNat ++
          [46, 46, 46, 10]) = (v.map fun x => (x.1, x.2.getD 0 0)).flatMap fun t => [32, 32] ++ decBytes t.1 ++ [45, 62] ++
            decBytes t.2.toNat ++ [46, 46, 46, 10] := by
        intro v
        rw [List.flatMap_map]
      rw [debugLin, debugLin, hm, hm, h1, h2]
  · intro c d
    constructor
    · intro h
      have key : ∀ (v w : List ℕ) (r r' : Bytes), (v.flatMap fun i => [32] ++ decBytes i) ++ 32 :: 93 :: r =
          (w.flatMap fun i => [32] ++ decBytes i) ++ 32 :: 93 :: r' → v = w ∧ r = r' := by
        have hh : ∀ (i : ℕ) (t t' : Bytes), decBytes i ++ t ≠ 93 :: t' := by
          intro i t t' he
          obtain ⟨a, b, hab, hn⟩ := dec_head i t
          rw [hab, List.cons.injEq] at he
          exact hn (he.1 ▸ nd93)
        have sp : ∀ (v : List ℕ) (r : Bytes), ∃ t, (v.flatMap fun i => [32] ++ decBytes i) ++ 32 :: 93 :: r = 32 :: t := by
          intro v r
          cases v with
          | nil => exact ⟨_, rfl⟩
          | cons x v => exact ⟨_, rfl⟩
        intro v
        induction v with
        | nil =>
          intro w r r' h
          cases w with
          | nil => simpa using h
          | cons y w =>
            simp only [List.flatMap_nil, List.nil_append, List.flatMap_cons, List.append_assoc, List.cons_append, List.cons.injEq,
              true_and] at h
            exact absurd h.symm (hh _ _ _)
        | cons x v ih =>
          intro w r r' h
          cases w with
          | nil =>
            simp only [List.flatMap_nil, List.nil_append, List.flatMap_cons, List.append_assoc, List.cons_append, List.cons.injEq,
              true_and] at h
            exact absurd h (hh _ _ _)
          | cons y w =>
            have e : ∀ (x : ℕ) (v : List ℕ) (r : Bytes), ((x :: v).flatMap fun i => [32] ++ decBytes i) ++ 32 :: 93 :: r =
                32 :: (decBytes x ++ ((v.flatMap fun i => [32] ++ decBytes i) ++ 32 :: 93 :: r)) := by
              intro x v r
              simp
            rw [e, e, List.cons.injEq] at h
            have h := h.2
            obtain ⟨t, ht⟩ := sp v r
            obtain ⟨t', ht'⟩ := sp w r'
            rw [ht, ht'] at h
            obtain ⟨h1, -, h2⟩ := dec_split nd32 nd32 h
            obtain ⟨h3, h4⟩ := ih w r r' (by rw [ht, ht', h2])
            exact ⟨by rw [h1, h3], h4⟩
      have e : ∀ c : QuadConstraint Bytes, debugQuad c = 123 :: 91 :: ((c.indexes.flatMap fun i => [32] ++ decBytes i) ++
          32 :: 93 :: (44 :: 32 :: (decBytes (c.equalsTo.getD 0 0).toNat ++ 32 :: (decBytes (c.equalsTo.getD 1 0).toNat ++
            46 :: [46, 46, 32, 125, 10])))) := by
        intro c
        simp [debugQuad]
      rw [e, e, List.cons.injEq, List.cons.injEq] at h
      obtain ⟨h1, h2⟩ := key _ _ _ _ h.2.2
      obtain ⟨h3, -, h4⟩ := dec_split nd32 nd32 (List.cons.inj (List.cons.inj h2).2).2
      obtain ⟨h5, -⟩ := dec_split nd46 nd46 h4
      exact ⟨h1, UInt8.toNat_inj.1 h3, UInt8.toNat_inj.1 h5⟩
    · rintro ⟨h1, h2, h3⟩
      rw [debugQuad, debugQuad, h1, h2, h3]

/-- `[-1 3]` modulo 7; the texts of `5` and `261` as constants of a linear constraint agree in `debugPrint`. -/
example : printSvec ([6, 3] : List (ZMod 7)) = .ok [91, 45, 49, 32, 51, 93] ∧
    printEvec ([⟨![6, 3]⟩, ⟨![0, 1]⟩] : List (Elt (ZMod 7) 2)) =
      .ok [91, 91, 45, 49, 32, 51, 93, 32, 91, 48, 32, 49, 93, 93] ∧
    debugLin ⟨[(3, Sc.zzBytes 32 5)], Sc.zzBytes 32 5⟩ = debugLin ⟨[(3, Sc.zzBytes 32 5)], Sc.zzBytes 32 261⟩ := by
  refine ⟨?_, ?_, ((C108_debugPrint).1 _ _).2 ⟨rfl, by decide +kernel⟩⟩
  · rw [printSvec, printVec_eq _ _ (by simp) (by norm_num)]
    decide +kernel
  · rw [printEvec, printVec_eq _ _ (by simp) (by norm_num)]
    decide +kernel

/-- Modulo 7, 4 is printed as `-3` and 3 as `3`. -/
example : printScalar (4 : ZMod 7) = [45, 51] ∧ printScalar (3 : ZMod 7) = [51] ∧ (7 : ℕ) % 2 = 1 := by
  refine ⟨by decide +kernel, by decide +kernel, by decide⟩

/-- `{1 22 }`, and the texts of `{-1}` and `{1}` differ. -/
example : ppSizes [1, 22] = [123, 49, 32, 50, 50, 32, 125] ∧ ppInts [-1] ≠ ppInts [1] := by
  refine ⟨by decide +kernel, by decide +kernel⟩

/-- The scalars 5 and 5 + order, as bytes, are different and are printed alike; 5 and 6 are not. -/
example : Sc.zzBytes 32 5 ≠ Sc.zzBytes 32 (5 + Regev.P) ∧
    ppPtxtVec [(3, Sc.zzBytes 32 5)] = ppPtxtVec [(3, Sc.zzBytes 32 (5 + Regev.P))] ∧
    ppPtxtVec [(3, Sc.zzBytes 32 5)] ≠ ppPtxtVec [(3, Sc.zzBytes 32 6)] := by
  refine ⟨by decide +kernel, ?_, ?_⟩
  · have := (C108_vector [(3, Sc.zzBytes 32 5)] [(3, Sc.zzBytes 32 (5 + Regev.P))] [] []).2 ⟨by decide +kernel, rfl⟩
    simpa using this
  · intro h
    have := (C108_vector [(3, Sc.zzBytes 32 5)] [(3, Sc.zzBytes 32 6)] [] []).1 (by simpa using h)
    exact absurd this.1 (by decide +kernel)

end Verif.Props
