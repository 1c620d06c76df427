import Verif.Lemmas.Slot
import Verif.Spec.RegevProofs
import Verif.Lemmas.Aggregate4

namespace Verif
open Spec Regev
open scoped BigOperators

section
variable {q : ℕ} [Fact q.Prime]

instance : Fact (1 < q) := ⟨(Fact.out : q.Prime).one_lt⟩

/-! ### Challenges -/

theorem eltX_mul (a : ℤ) : eltX (ZMod q) * ((a : ℤ) : Elt (ZMod q) 2) = (a : ZMod q) • eltX (ZMod q) := by
  rw [← mul_one (((a : ℤ) : Elt (ZMod q) 2)), ← zsmul_eq_mul, mul_smul_comm, mul_one]
  exact (Int.cast_smul_eq_zsmul (ZMod q) a _).symm

theorem intCast_elt (a : ℤ) : ((a : ℤ) : Elt (ZMod q) 2) = (a : ZMod q) • (1 : Elt (ZMod q) 2) := by
  rw [← mul_one (((a : ℤ) : Elt (ZMod q) 2)), ← zsmul_eq_mul]
  exact (Int.cast_smul_eq_zsmul (ZMod q) a _).symm

theorem one_c0 : (1 : Elt (ZMod q) 2).c 0 = 1 := by
  have := (Fact.out : q.Prime).one_lt
  rfl
theorem one_c1 : (1 : Elt (ZMod q) 2).c 1 = 0 := by
  rfl

theorem polyMat_eltX {n m : ℕ} (M : Fin 2 → Matrix (Fin n) (Fin m) ℤ) (i : Fin n) (j : Fin m) :
    polyMat (eltX (ZMod q)) M i j = ⟨fun k => ((M k i j : ℤ) : ZMod q)⟩ := by
  unfold polyMat
  rw [Fin.sum_univ_two]
  apply Elt.ext
  funext k
  simp only [Fin.val_zero, Fin.val_one, pow_zero, pow_one, one_mul]
  rw [eltX_mul, intCast_elt, Elt.add_c, Elt.smul_c, Elt.smul_c]
  fin_cases k
  · show _ * (1 : Elt (ZMod q) 2).c 0 + _ * 0 = _
    rw [one_c0]; simp
  · show _ * (1 : Elt (ZMod q) 2).c 1 + _ * 1 = _
    rw [one_c1]; simp

/-- The stored matrix `R` multiplies vectors like the matrix `ρ`. -/
structure Acts (R : List TMat) (n m : ℕ) (ρ : ℕ → ℕ → Elt (ZMod q) 2) : Prop where
  right : ∀ v : EVec q 2, v.length = m → ∃ w, rightVecMultE 2 (eltX (ZMod q)) R v = .ok w ∧
    w.length = n ∧ ∀ i < n, w.getD i 0 = ∑ j ∈ Finset.range m, ρ i j * v.getD j 0
  left : ∀ v : EVec q 2, v.length = n → ∃ w, leftVecMultE 2 (eltX (ZMod q)) v R = .ok w ∧
    w.length = m ∧ ∀ j < m, w.getD j 0 = ∑ i ∈ Finset.range n, v.getD i 0 * ρ i j

theorem ofFn_getD {R : Type} [Zero R] (v : List R) : v = List.ofFn fun i : Fin v.length => v.getD i 0 := by
  apply List.ext_getElem
  · simp
  · intro i h1 h2
    simp

theorem acts_of_holds {R : List TMat} {n m : ℕ} (bytes : Bytes)
    (h : EHolds R fun k : Fin 2 => decoded (bytes.drop (k.1 * (n * ((m + 3) / 4)))) n m) :
    Acts (q := q) R n m (ternaryOf bytes n m) := by
  have hent : ∀ (i : Fin n) (j : Fin m), polyMat (eltX (ZMod q))
      (fun k : Fin 2 => decoded (bytes.drop (k.1 * (n * ((m + 3) / 4)))) n m) i j =
      ternaryOf bytes n m i j := fun i j => by
    rw [polyMat_eltX]; rfl
  constructor
  · rintro v rfl
    have e := Props.C28_right_vec (eltX (ZMod q)) (by norm_num) h (fun i : Fin v.length => v.getD i 0)
    rw [← ofFn_getD v] at e
    refine ⟨_, e, List.length_ofFn, ?_⟩
    · intro i hi
      rw [List.getD_eq_getElem?_getD, List.getElem?_ofFn, dif_pos hi]
      simp only [Option.getD_some, Matrix.mulVec, dotProduct, hent]
      rw [Finset.sum_range]
  · rintro v rfl
    have e := Props.C28_left_vec (eltX (ZMod q)) (by norm_num) h (fun i : Fin v.length => v.getD i 0)
    rw [← ofFn_getD v] at e
    refine ⟨_, e, List.length_ofFn, ?_⟩
    · intro i hi
      rw [List.getD_eq_getElem?_getD, List.getElem?_ofFn, dif_pos hi]
      simp only [Option.getD_some, Matrix.vecMul, dotProduct, hent]
      rw [Finset.sum_range]

variable {G : Type} [AddCommGroup G] [Module (ZMod q) G]

/-- A challenge of `n` bytes has `n` bytes. -/
def LengthOk (E : Env (ZMod q) G) : Prop := ∀ st l n, (E.challenge st l n).1.length = n

theorem newTernaryE_total {E : Env (ZMod q) G} (hE : LengthOk E) (st : E.St) (l : Bytes) {n m : ℕ}
    (hn : 0 < n) (hm : 0 < m) (h4 : n * ((4 - m % 4) % 4) ≤ 3) :
    ∃ R, newTernaryE E st l n m = .ok (R, (E.challenge st l (2 * ((n * m + 3) / 4))).2) ∧
      Acts (q := q) R n m (ternaryOf (E.challenge st l (2 * ((n * m + 3) / 4))).1 n m) := by
  obtain ⟨Ms, h1, h2⟩ := (Props.C29_ematrix (fun k => (E.challenge st l k).1) (hE st l) [] 2 n m
    (by norm_num) hn hm).1 h4
  refine ⟨Ms, ?_, acts_of_holds _ h2⟩
  unfold newTernaryE
  rw [if_neg (by omega), h1, Res.ok_bind]

theorem newTernaryE_ub {E : Env (ZMod q) G} (hE : LengthOk E) (st : E.St) (l : Bytes) {n m : ℕ}
    (hn : 0 < n) (hm : 0 < m) (h4 : 3 < n * ((4 - m % 4) % 4)) :
    newTernaryE E st l n m = .ub := by
  unfold newTernaryE
  rw [if_neg (by omega), (Props.C29_ematrix (fun k => (E.challenge st l k).1) (hE st l) [] 2 n m
    (by norm_num) hn hm).2 h4]
  rfl

theorem newTernaryE_ok {E : Env (ZMod q) G} (hE : LengthOk E) {st : E.St} {l : Bytes} {n m : ℕ}
    (hn : 0 < n) (hm : 0 < m) {R : List TMat} {st' : E.St} (h : newTernaryE E st l n m = .ok (R, st')) :
    st' = (E.challenge st l (2 * ((n * m + 3) / 4))).2 ∧
      Acts (q := q) R n m (ternaryOf (E.challenge st l (2 * ((n * m + 3) / 4))).1 n m) := by
  by_cases h4 : n * ((4 - m % 4) % 4) ≤ 3
  · obtain ⟨R', h1, h2⟩ := newTernaryE_total hE st l hn hm h4
    rw [h] at h1
    obtain ⟨rfl, rfl⟩ := Prod.mk.inj (Res.ok.inj h1)
    exact ⟨rfl, h2⟩
  · rw [newTernaryE_ub hE st l hn hm (by omega)] at h
    cases h

theorem newElement_eq {E : Env (ZMod q) G} (hE : LengthOk E) (st : E.St) (l : Bytes) :
    newElement E st l = .ok (elementOf (E.challenge st l 64).1, (E.challenge st l 64).2) := by
  unfold newElement Sc.elementFromBytes
  have hl := hE st l 64
  generalize (E.challenge st l 64).1 = b at hl ⊢
  have h2 : Sc.elementFromLoop (q := q) (0 + 1 + 1) b 32 64 =
      .ok [((Sc.leVal (b.take 32) : ℕ) : ZMod q), ((Sc.leVal ((b.drop 32).take 32) : ℕ) : ZMod q)] := by
    simp only [Sc.elementFromLoop, Sc.scalarFromBytes]
    norm_num
    rw [rdN_ok (by omega), Res.ok_bind, rdN_ok (by simp; omega), Res.ok_bind]
  rw [show Sc.elementFromLoop (q := q) 2 b 32 64 = _ from h2, Res.ok_bind, Res.ok_bind]
  congr 2
  apply Elt.ext
  funext k
  fin_cases k <;> rfl

/-! ### Left-hand sides -/

theorem dotBlk_eq (v : EVec q 2) (x : ℕ → ZMod q) (idx : ℕ) :
    dotBlk v x idx = ∑ i ∈ Finset.range v.length, v.getD i 0 * eltAt x idx i := by
  induction v generalizing idx with
  | nil => simp [dotBlk]
  | cons a v ih =>
    rw [dotBlk, ih, List.length_cons, Finset.sum_range_succ', add_comm]
    congr 1
    refine Finset.sum_congr rfl fun i _ => ?_
    rw [List.getD_cons_succ]
    congr 1
    unfold eltAt
    congr 1
    funext j
    congr 1
    omega

theorem dotVar_eq (v : EVec q 2) (x : ℕ → ZMod q) (idx : ℕ) :
    dotVar v x idx = ∑ i ∈ Finset.range v.length, x (idx + i) • v.getD i 0 := by
  induction v generalizing idx with
  | nil => simp [dotVar]
  | cons a v ih =>
    rw [dotVar, ih, List.length_cons, Finset.sum_range_succ', add_comm]
    congr 1
    refine Finset.sum_congr rfl fun i _ => ?_
    rw [List.getD_cons_succ]
    congr 2
    omega

theorem getD_map0 {α β : Type} [Zero α] [Zero β] (f : α → β) (hf : f 0 = 0) (v : List α) (i : ℕ) :
    (v.map f).getD i 0 = f (v.getD i 0) := by
  rw [List.getD_eq_getElem?_getD, List.getD_eq_getElem?_getD, List.getElem?_map]
  cases v[i]? <;> simp [hf]

theorem scaleE_getD (s : ZMod q) (v : EVec q 2) (i : ℕ) : (scaleE s v).getD i 0 = s • v.getD i 0 :=
  getD_map0 (fun e => s • e) (smul_zero s) v i
theorem mulE_getD (v : EVec q 2) (e : Elt (ZMod q) 2) (i : ℕ) : (mulE v e).getD i 0 = v.getD i 0 * e :=
  getD_map0 (fun a => a * e) (zero_mul e) v i
theorem negE_getD (v : EVec q 2) (i : ℕ) : (negE v).getD i 0 = - v.getD i 0 :=
  getD_map0 (fun a => -a) neg_zero v i

theorem power_getD (x : Elt (ZMod q) 2) (n j : ℕ) (hj : j < n) :
    ((List.range n).map fun i => x ^ i).getD j 0 = x ^ j := by
  rw [List.getD_eq_getElem?_getD, List.getElem?_map, List.getElem?_range hj]; rfl

/-! ### The witness -/

/-- Several vectors written to a map one after the other. -/
def putAll {F : Type} (m : PtxtVec F) (W : List (ℕ × List F)) : PtxtVec F :=
  W.foldl (fun m p => addSVec2Map m p.2 p.1) m

theorem putAll_append {F : Type} (m : PtxtVec F) (W W' : List (ℕ × List F)) :
    putAll m (W ++ W') = putAll (putAll m W) W' := List.foldl_append

/-- The two ranges do not meet. -/
def Apart {F : Type} (p p' : ℕ × List F) : Prop :=
  p.1 + p.2.length ≤ p'.1 ∨ p'.1 + p'.2.length ≤ p.1

theorem putAll_spec {F : Type} [Field F] [DecidableEq F] (W : List (ℕ × List F)) : ∀ (m : PtxtVec F), Sorted m →
    Sorted (putAll m W) ∧
    (∀ j, j ∈ keys (putAll m W) ↔ (∃ p ∈ W, p.1 ≤ j ∧ j < p.1 + p.2.length) ∨ j ∈ keys m) ∧
    (∀ j, (∀ p ∈ W, ¬ (p.1 ≤ j ∧ j < p.1 + p.2.length)) → coef (putAll m W) j = coef m j) ∧
    (W.Pairwise Apart → ∀ p ∈ W, ∀ i a, p.2[i]? = some a → coef (putAll m W) (p.1 + i) = a) := by
  induction W with
  | nil => intro m hm; simp [putAll, hm]
  | cons p W ih =>
    intro m hm
    obtain ⟨a1, a2, a3, a4⟩ := Props.C40_scalars m hm p.2 p.1
    obtain ⟨b1, b2, b3, b4⟩ := ih _ a1
    refine ⟨b1, ?_, ?_, ?_⟩
    · intro j
      show j ∈ keys (putAll (addSVec2Map m p.2 p.1) W) ↔ _
      rw [b2, a2]
      simp only [List.mem_cons, exists_eq_or_imp]
      rw [← or_assoc, or_comm (a := ∃ p ∈ W, p.1 ≤ j ∧ j < p.1 + p.2.length)]
    · intro j hj
      show coef (putAll (addSVec2Map m p.2 p.1) W) j = _
      rw [b3 j (fun p' hp' => hj p' (List.mem_cons_of_mem _ hp')), a4 j (hj p List.mem_cons_self)]
    · intro hp p' hp' i a hi
      rw [List.pairwise_cons] at hp
      show coef (putAll (addSVec2Map m p.2 p.1) W) _ = _
      rcases List.mem_cons.1 hp' with rfl | hp'
      · rw [b3, a3 i a hi]
        intro p'' hp'' hr
        have := hp.1 p'' hp''
        have hl := (List.getElem?_eq_some_iff.1 hi).1
        unfold Apart at this
        omega
      · exact b4 hp.2 p' hp' i a hi

theorem addE_eq {F : Type} {ell : ℕ} (m : PtxtVec F) (v : List (Elt F ell)) (off : ℕ) :
    addEVec2Map m v off = addSVec2Map m (coeffs v) off := by
  unfold addEVec2Map addSVec2Map
  rw [coeffs_length]; rfl

theorem putPair_eq (m : PtxtVec (ZMod q)) (p : Padded q) (a b : ℕ) :
    putPair m p a b = putAll m [(a, coeffs p.comp), (b, coeffs p.pad)] := by
  unfold putPair
  rw [addE_eq, addE_eq]; rfl

theorem Spec.Reads.elt {x : ℕ → ZMod q} {off : ℕ} {v : EVec q 2} (h : Reads x off (coeffs v)) (i : ℕ)
    (hi : i < v.length) : eltAt x off i = v.getD i 0 := by
  apply Elt.ext
  funext j
  have h1 := coeffs_get v i j _ (List.getElem?_eq_getElem hi)
  have := h _ _ h1
  show x _ = _
  rw [List.getD_eq_getElem?_getD, List.getElem?_eq_getElem hi, Option.getD_some, ← this]
  congr 1
  ring

theorem Spec.Reads.val {F : Type} [Zero F] {x : ℕ → F} {off : ℕ} {v : List F} (h : Reads x off v) (i : ℕ)
    (hi : i < v.length) : x (off + i) = v.getD i 0 := by
  rw [List.getD_eq_getElem?_getD, List.getElem?_eq_getElem hi]
  exact h i _ (List.getElem?_eq_getElem hi)

theorem agrees_reads {F : Type} [Field F] [DecidableEq F] {m : PtxtVec F} (hm : Sorted m) {W : List (ℕ × List F)}
    (hW : W.Pairwise Apart) {x : ℕ → F} (hx : Agrees (putAll m W) x) :
    ∀ p ∈ W, Reads x p.1 p.2 := by
  intro p hp i a hi
  obtain ⟨-, h2, -, h4⟩ := putAll_spec W m hm
  have hl := (List.getElem?_eq_some_iff.1 hi).1
  rw [hx _ ((h2 _).2 (Or.inl ⟨p, hp, by omega, by omega⟩)), h4 hW p hp i a hi]

/-! ### Commitments -/

theorem mexp_reads {F : Type} [Field F] [Module F G] (v : List F) (x : ℕ → F) (off : ℕ)
    (h : Reads x off v) : ∀ (gs : List G), off + v.length ≤ gs.length →
    mexp v (gs.drop off) = ((List.range' off v.length).map fun i => x i • gs.getD i 0).sum := by
  intro gs
  induction v generalizing off with
  | nil => intro _; simp [mexp]
  | cons a v ih =>
    intro hl
    simp only [List.length_cons] at hl ⊢
    have hd : gs.drop off = gs[off]'(by omega) :: gs.drop (off + 1) := List.drop_eq_getElem_cons (by omega)
    rw [List.range'_succ, List.map_cons, List.sum_cons]
    rw [← ih (off + 1) (fun i b hi => by
      have := h (i + 1) b (by simpa using hi)
      rw [← this]; congr 1; omega) (by omega)]
    have h0 := h 0 a (by simp)
    rw [Nat.add_zero] at h0
    rw [h0, List.getD_eq_getElem?_getD, List.getElem?_eq_getElem (by omega)]
    rw [hd]
    simp only [mexp, List.zipWith_cons_cons, List.sum_cons, Option.getD_some]

theorem commitS_opens {base : G} {v : List (ZMod q)} {off : ℕ} {Gs : List G} {r : ZMod q} {c : G}
    (hl : off + v.length ≤ Gs.length) :
    commitS base v off Gs r = .ok c → ∀ x, Reads x off v → c = comG base Gs x off v.length r := by
  intro h x hx
  rw [(Props.C56_scalars base v off Gs r).1 hl] at h
  obtain rfl := Res.ok.inj h
  unfold comG
  rw [mexp_reads v x off hx Gs hl]

theorem commitE_opens {base : G} {v : EVec q 2} {off : ℕ} {Gs : List G} {r : ZMod q} {c : G}
    (hl : off + v.length * 2 ≤ Gs.length) :
    commitE base v off Gs r = .ok c → ∀ x, Reads x off (coeffs v) → c = comG base Gs x off (v.length * 2) r := by
  intro h x hx
  have he : commitE base v off Gs r = commitE base v off Gs r 0 (some v.length) := rfl
  rw [he, (Props.C56_elements base v off Gs r 0 v.length (by omega) le_rfl).1 (by omega)] at h
  obtain rfl := Res.ok.inj h
  unfold comG
  rw [List.take_length, List.drop_zero, mexp_reads _ x off hx Gs (by rw [coeffs_length]; omega),
    coeffs_length]

theorem commit2E_opens {base : G} {v : EVec q 2} {off : ℕ} {Gs Hs : List G} {r : ZMod q} {c : G}
    (hl : off + v.length * 2 ≤ Gs.length) (hl' : off + v.length * 2 ≤ Hs.length) :
    commit2E base v off Gs Hs r = .ok c → ∀ x, Reads x off (coeffs v) →
      c = comGH base Gs Hs x x off (v.length * 2) r := by
  intro h x hx
  have he : commit2E base v off Gs Hs r = commit2E base v off Gs Hs r 0 (some v.length) := rfl
  rw [he, (Props.C56_double base v off Gs Hs r 0 v.length (by omega) le_rfl).1 (by omega) (by omega)] at h
  obtain rfl := Res.ok.inj h
  unfold comGH
  rw [List.take_length, List.drop_zero, mexp_reads _ x off hx Gs (by rw [coeffs_length]; omega),
    mexp_reads _ x off hx Hs (by rw [coeffs_length]; omega), coeffs_length, add_assoc,
    List.sum_map_add]

end
end Verif
