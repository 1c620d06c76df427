/-
C87: what the acceptance of the final linear proof of a round implies.
-/
import Verif.Props.RoundForgery
import Verif.Props.TreeExists

namespace Verif.Props
open Verif Verif.Spec

section
variable {F G : Type} [Field F] [DecidableEq F] [AddCommGroup G] [Module F G]

omit [DecidableEq F] in
theorem mexp_zip_coef (Gs : List G) : ∀ (ks : List ℕ) (a : List F), a.length = ks.length →
    mexp a (ks.map fun i => Gs.getD i 0) = ((ks.zip a).map fun p => p.2 • Gs.getD p.1 0).sum := by
  intro ks
  induction ks with
  | nil => intro a h; obtain rfl : a = [] := List.length_eq_zero_iff.1 h; simp [mexp]
  | cons k ks ih =>
    intro a h
    match a, h with
    | b :: a, h =>
      simp only [List.map_cons, mexp_cons, List.zip_cons_cons, List.sum_cons]
      rw [ih a (by simpa using h)]

omit [DecidableEq F] in
/-- A sum over the entries of a map, written over any list of distinct keys that has them all. -/
theorem smul_sum_coef (f : ℕ → G) : ∀ (m : PtxtVec F) (I : List ℕ), I.Nodup → (∀ i ∈ keys m, i ∈ I) →
    (m.map fun p => p.2 • f p.1).sum = (I.map fun i => coef m i • f i).sum := by
  intro m
  induction m with
  | nil => intro I _ _; simp
  | cons p m ih =>
    intro I hI hm
    rw [List.map_cons, List.sum_cons, ih I hI (fun i hi => hm i (by
      unfold keys at hi ⊢; rw [List.map_cons]; exact List.mem_cons_of_mem _ hi))]
    have e : (I.map fun i => coef (p :: m) i • f i)
        = I.map fun i => (if p.1 = i then p.2 else 0) • f i + coef m i • f i := by
      apply List.map_congr_left
      intro i _
      rw [coef_cons, add_smul]
    rw [e, List.sum_map_add]
    congr 1
    have hp : p.1 ∈ I := hm _ (by unfold keys; simp)
    clear e hm ih
    induction I with
    | nil => cases hp
    | cons j I ih =>
      rw [List.nodup_cons] at hI
      rw [List.map_cons, List.sum_cons]
      rcases List.mem_cons.1 hp with h | h
      · have z : (I.map fun i => (if p.1 = i then p.2 else 0) • f i).sum = 0 := by
          apply List.sum_eq_zero
          intro g hg
          obtain ⟨i, hi, rfl⟩ := List.mem_map.1 hg
          rw [if_neg (by rintro rfl; rw [← h] at hI; exact hI.1 hi), zero_smul]
        rw [z, add_zero, ← h, if_pos rfl]
      · rw [if_neg (by rintro rfl; exact hI.1 h), zero_smul, zero_add]
        exact ih hI.2 h

omit [DecidableEq F] in
theorem sub_smul_sum (f : ℕ → G) (p q : ℕ → F) (J : List ℕ) : (J.map fun i => (p i - q i) • f i).sum
    = (J.map fun i => p i • f i).sum - (J.map fun i => q i • f i).sum := by
  induction J with
  | nil => simp
  | cons j J ih => rw [List.map_cons, List.sum_cons, ih, List.map_cons, List.sum_cons, List.map_cons, List.sum_cons]; module

omit [DecidableEq F] in
/-- `<a, b>` read off the map of the extracted values. -/
theorem dot_zip_coef (b : PtxtVec F) (hb : Sorted b) (a : List F) (ha : a.length = b.length) :
    dot a (b.map Prod.snd) = ((keys b).map fun i => coef ((keys b).zip a) i * coef b i).sum := by
  have key : ∀ (b : PtxtVec F) (a : List F), a.length = b.length → (keys b).Nodup →
      dot a (b.map Prod.snd) = ((keys b).map fun i => coef ((keys b).zip a) i * coef b i).sum := by
    intro b
    induction b with
    | nil => intro a _ _; simp [keys, dot]
    | cons p b ih =>
      intro a h hn
      match a, h with
      | c :: a, h =>
        have hk : keys (p :: b) = p.1 :: keys b := rfl
        rw [hk] at hn ⊢
        rw [List.nodup_cons] at hn
        have hd : dot (c :: a) ((p :: b).map Prod.snd) = c * p.2 + dot a (b.map Prod.snd) := by
          simp [dot]
        rw [hd, ih a (by simpa using h) hn.2, List.map_cons, List.sum_cons, List.zip_cons_cons]
        have z1 : coef ((keys b).zip a) p.1 = 0 := by
          apply coef_eq_zero
          intro hm
          unfold keys at hm
          obtain ⟨q, hq, e⟩ := List.mem_map.1 hm
          exact hn.1 (e ▸ (List.of_mem_zip hq).1)
        have z2 : coef b p.1 = 0 := coef_eq_zero _ _ hn.1
        rw [coef_cons, coef_cons, z1, z2]
        simp only [if_true, add_zero]
        congr 2
        apply List.map_congr_left
        intro i hi
        rw [coef_cons, coef_cons]
        have : p.1 ≠ i := by rintro rfl; exact hn.1 hi
        simp only [this, if_false, zero_add]
  exact key b a ha (nodup_keys hb)

variable [DecidableEq G]

/-- **C87.** The final linear proof of a round, checked against what a verifier computes from the commitments and
the constraints.  Suppose the commitments of the round open to `x, y` with the randomness `rnd`, and that of the
extra variable `w` to `t` with randomness `rw`.  From two trees of accepted proofs, for the values `F₁, F₂` of the
generator, the scalars below are computed from the answers and these openings.  They are two linear relations: one
between `base`, the generators `G_i`, `F₁` and `F₂`, and, when its coefficient `φ` is zero, one between `base` and
the `G_i`.  When both are trivial, `t` is the value that the linear-only variables contribute to the combined linear
constraint.  So whoever makes the verifier accept another `t` knows a non-trivial relation between generators. -/
theorem C87_linear_part (E : Env F G) (tie : List (CompIter F) → ℕ)
    (v v2 rtv : ReadyToVerify F G) (vd : VerifierData F G E.St) (kay enn tee : ℕ) (x y : ℕ → F) (rnd : Blocks F)
    (hix : IsLayout vd.ix kay 2 enn tee) (hw2 : vd.ix.w < 2 ^ 31) (hG : vd.Gs.length = vd.ix.w + 1)
    (hH : 260 * 10 ≤ vd.Hs.length) (hne : vd.linConstr ≠ []) (hs : ∀ c ∈ vd.linConstr, Sorted c.terms)
    (hk : ∀ c ∈ vd.linConstr, ∀ k ∈ keys c.terms, k < vd.ix.w)
    (hn : vd.normConstr.length = 10) (hI : NormBlocks vd.normConstr 260)
    (hO : BlocksOpen E.base vd.Gs vd.Hs x y vd.ix kay 2 enn tee vd.com rnd)
    (r1 r2 u rho : F) (st1 st2 st3 st4 merL merQ : E.St)
    (h1 : E.newChallenge vd.mer (str "aggregateLinear") = (r1, st1))
    (h2 : E.newChallenge st1 (str "aggregateNorms") = (r2, st2))
    (h3 : E.newChallenge st2 (str "enforceNorm") = (u, st3))
    (h4 : E.newChallenge st3 (str "separareLinQuad") = (rho, st4))
    (hr2 : r2 ≠ 0) (hlast : aggCoef vd.linConstr r1 (vd.ix.w - 1) ≠ 0)
    (t rw' : F) (wCom : G) (hwC : wCom = rw' • E.base + t • vd.Gs.getD vd.ix.w 0)
    (hpub : publicStatement E tie v vd wCom = .ok (v2, st4))
    (hfin : finalStatement E v2 { vd with mer := st4 } = .ok (rtv, merL, merQ))
    (F₁ F₂ : G) (t₁ t₂ : LinTree F G)
    (ht₁ : t₁.Accepted E.base rtv.linGs rtv.linStmnt rtv.linCnstr.equalsTo none rtv.linCom F₁ [] [] [])
    (ht₂ : t₂.Accepted E.base rtv.linGs rtv.linStmnt rtv.linCnstr.equalsTo none rtv.linCom F₂ [] [] []) :
    let I := List.range' (260 * 10) (vd.ix.w + 1 - 260 * 10)
    let a := t₁.extract.2.take rtv.linGs.length
    let a' := t₂.extract.2.take rtv.linGs.length
    let ρ := t₁.extract.1 - t₂.extract.1
    let α := List.zipWith (· - ·) a a'
    let φ := dot a rtv.linStmnt
    let ψ := - dot a' rtv.linStmnt
    let σ := t₁.extract.1 - (rnd.lins.sum + rw')
    let β := fun i => coef ((keys v2.linCnstr.terms).zip a) i - if i = vd.ix.w then t else x i
    ρ • E.base + mexp α rtv.linGs + φ • F₁ + ψ • F₂ = 0 ∧
    (φ = 0 → σ • E.base + (I.map fun i => β i • vd.Gs.getD i 0).sum = 0) ∧
    (φ = 0 → (∀ i ∈ I, β i = 0) →
      t = ((List.range' (260 * 10) (vd.ix.w - 260 * 10)).map fun i => aggCoef vd.linConstr r1 i * x i).sum) := by
  have hw := layout_w hix
  obtain ⟨v2', bs, a1, a2, a3, a4, a5, a6, a7, a8, a9, a10⟩ := publicStatement_spec E tie v vd
    wCom r1 r2 u
    rho st1 st2 st3 st4 260 (by omega) h1 h2 h3 h4 hr2 hne hs hk hlast hn hI (by omega) hw2
  rw [a1] at hpub
  obtain ⟨rfl, -⟩ := Prod.mk.inj (Res.ok.inj hpub)
  have hl := hO.lin hix
  have hkb : keys (bs ++ [(vd.ix.w, (-1 : F))]) = keys bs ++ [vd.ix.w] := by simp [keys]
  have hsb : Sorted (bs ++ [(vd.ix.w, (-1 : F))]) := by
    have := mapPut_append bs vd.ix.w (-1 : F) (fun i hi => (a3 i hi).2)
    rw [← this]; exact mapPut_sorted _ a2 _ _
  have hfs := finalStatement_ok E v2' { vd with mer := st4 } (260 * 10) (by omega) (by simp only; omega) hG hH
    (by
      simp only [a5]
      intro k hk
      rw [hkb] at hk
      rcases List.mem_append.1 hk with hk | hk
      · exact (a3 k hk).2.le
      · exact (List.mem_singleton.1 hk).le)
    (by simp only [a6]) _ _ a7 a8
  rw [hfs] at hfin
  obtain ⟨rfl, -, -⟩ := by simpa only [Res.ok.injEq, Prod.mk.injEq] using hfin
  clear hfs hfin hpub a1
  obtain ⟨N, hN⟩ : ∃ N, N = 260 * 10 := ⟨_, rfl⟩
  obtain ⟨w, hwd⟩ : ∃ w, w = vd.ix.w := ⟨_, rfl⟩
  simp only [← hN, ← hwd] at hw hw2 hG hH a3 a4 a5 a9 hl hkb hsb hwC ht₁ ht₂ ⊢
  simp only [a5] at ht₁ ht₂ ⊢
  obtain ⟨m, hm⟩ : ∃ m, m = bs ++ [(w, (-1 : F))] := ⟨_, rfl⟩
  simp only [← hm] at ht₁ ht₂ hsb hkb ⊢
  have hml : (m.map Prod.snd).length = ((keys m).map fun i => vd.Gs.getD i 0).length := by simp [keys]
  have hm0 : 1 ≤ m.length := by rw [hm]; simp
  have hmw : ∀ k ∈ keys m, N ≤ k ∧ k ≤ w := by
    intro k hk
    rw [hkb] at hk
    rcases List.mem_append.1 hk with hk | hk
    · have := a3 k hk; omega
    · have := List.mem_singleton.1 hk; omega
  have hlen : ((keys m).map fun i => vd.Gs.getD i 0).length = m.length := by simp [keys]
  have hbig : m.length ≤ 2 ^ 63 := by
    have h1 : (keys m).length ≤ (List.range' N (w + 1 - N)).length :=
      List.Nodup.length_le_of_subset (nodup_keys hsb) (fun k hk => by
        have := hmw k hk
        rw [List.mem_range'_1]; omega)
    simp only [keys, List.length_map, List.length_range'] at h1
    have : (2 : ℕ) ^ 31 ≤ 2 ^ 63 := Nat.pow_le_pow_right (by omega) (by omega)
    omega
  have hsnd := C13_linear_sound E.base _ _ _ none _ F₁ F₂ t₁ t₂ (by rw [hlen]; exact hm0) (by rw [hlen]; exact hbig)
    hml (by intro o ho; cases ho) ht₁ ht₂
  simp only [sub_zero, zero_sub, Option.getD_none] at hsnd
  obtain ⟨l1, l2, e1, e2⟩ := hsnd
  refine ⟨e1, ?_, ?_⟩
  · intro hφ
    obtain ⟨hC, -⟩ := e2 hφ
    rw [a9, hl, hwC] at hC
    have hI : (List.range' N (w + 1 - N)) = List.range' N (w - N) ++ [w] := by
      have : w + 1 - N = (w - N) + 1 := by omega
      rw [this, List.range'_concat]
      congr 2; omega
    rw [mexp_zip_coef _ _ _ (l1.trans (by simp [keys])), smul_sum_coef (fun i => vd.Gs.getD i 0) _
      (List.range' N (w + 1 - N)) List.nodup_range' (by
        intro i hi
        unfold keys at hi
        obtain ⟨q, hq, rfl⟩ := List.mem_map.1 hi
        have := hmw _ (List.of_mem_zip hq).1
        rw [List.mem_range'_1]; omega)] at hC
    have hx : ((List.range' N (w + 1 - N)).map fun i => (if i = w then t else x i) • vd.Gs.getD i 0).sum
        = ((List.range' N (w - N)).map fun i => x i • vd.Gs.getD i 0).sum + t • vd.Gs.getD w 0 := by
      rw [hI, List.map_append, List.sum_append]
      congr 1
      · congr 1
        apply List.map_congr_left
        intro i hi
        rw [List.mem_range'_1] at hi
        rw [if_neg (by omega)]
      · simp
    have hsub : ∀ (J : List ℕ) (p q : ℕ → F), (J.map fun i => (p i - q i) • vd.Gs.getD i 0).sum
        = (J.map fun i => p i • vd.Gs.getD i 0).sum - (J.map fun i => q i • vd.Gs.getD i 0).sum := by
      intro J p q
      exact sub_smul_sum (fun i => vd.Gs.getD i 0) p q J
    rw [hsub, hx]
    simp only [mexp_nil_left, add_zero] at hC
    rw [← sub_eq_zero] at hC
    refine neg_eq_zero.1 (Eq.trans ?_ hC)
    module
  · intro hφ hβ
    rw [dot_zip_coef m hsb _ (l1.trans hlen)] at hφ
    have hv : ∀ i ∈ keys m, coef ((keys m).zip (t₁.extract.2.take ((keys m).map fun i => vd.Gs.getD i 0).length)) i
        = if i = w then t else x i := by
      intro i hi
      have := hmw i hi
      exact sub_eq_zero.1 (hβ i (by rw [List.mem_range'_1]; omega))
    have e : ((keys m).map fun i => coef ((keys m).zip
        (t₁.extract.2.take ((keys m).map fun i => vd.Gs.getD i 0).length)) i * coef m i)
        = (keys m).map fun i => (if i = w then t else x i) * coef m i := by
      apply List.map_congr_left
      intro i hi
      rw [hv i hi]
    rw [e, hkb, List.map_append, List.sum_append] at hφ
    have hbw : ∀ i ∈ keys bs, i ≠ w := fun i hi => by have := a3 i hi; omega
    have hcw : coef m w = -1 := coef_of_mem _ hsb _ _ (by rw [hm]; simp)
    simp only [List.map_cons, List.map_nil, List.sum_cons, List.sum_nil, if_true, add_zero, hcw] at hφ
    have e3 : ((keys bs).map fun i => (if i = w then t else x i) * coef m i).sum
        = ((List.range' N (w - N)).map fun i => aggCoef vd.linConstr r1 i * x i).sum := by
      have : ((keys bs).map fun i => (if i = w then t else x i) * coef m i)
          = (keys bs).map fun i => aggCoef vd.linConstr r1 i * x i := by
        apply List.map_congr_left
        intro i hi
        rw [if_neg (hbw i hi), hm, coef_append, a4 i (a3 i hi).1]
        have : coef [(w, (-1 : F))] i = 0 := coef_eq_zero _ _ (by simp [keys, hbw i hi])
        rw [this]; ring
      rw [this]
      apply sum_subset_zero (nodup_keys a2) List.nodup_range'
      · intro i hi
        have := a3 i hi
        rw [List.mem_range'_1]; omega
      · intro i hi hn
        rw [List.mem_range'_1] at hi
        rw [← a4 i hi.1, coef_eq_zero _ _ hn, zero_mul]
    rw [e3] at hφ
    linear_combination -hφ

/-- **C87, converse.** For the right value `t`, when every linear-only variable with a non-zero value occurs in the combined
constraint, the verifier's statement is computed and, whatever the generator, there are accepted proofs from which both
relations of `C87_linear_part` come out trivial. -/
theorem C87_linear_conv (E : Env F G) (tie : List (CompIter F) → ℕ)
    (v : ReadyToVerify F G) (vd : VerifierData F G E.St) (kay enn tee : ℕ) (x y : ℕ → F) (rnd : Blocks F)
    (hix : IsLayout vd.ix kay 2 enn tee) (hw2 : vd.ix.w < 2 ^ 31) (hG : vd.Gs.length = vd.ix.w + 1)
    (hH : 260 * 10 ≤ vd.Hs.length) (hne : vd.linConstr ≠ []) (hs : ∀ c ∈ vd.linConstr, Sorted c.terms)
    (hk : ∀ c ∈ vd.linConstr, ∀ k ∈ keys c.terms, k < vd.ix.w)
    (hn : vd.normConstr.length = 10) (hI : NormBlocks vd.normConstr 260)
    (hO : BlocksOpen E.base vd.Gs vd.Hs x y vd.ix kay 2 enn tee vd.com rnd)
    (r1 r2 u rho : F) (st1 st2 st3 st4 : E.St)
    (h1 : E.newChallenge vd.mer (str "aggregateLinear") = (r1, st1))
    (h2 : E.newChallenge st1 (str "aggregateNorms") = (r2, st2))
    (h3 : E.newChallenge st2 (str "enforceNorm") = (u, st3))
    (h4 : E.newChallenge st3 (str "separareLinQuad") = (rho, st4))
    (hC : GoodChallenges vd x r1 r2)
    (hF : ∃ y₁ y₂ y₃ : F, y₁ ≠ y₂ ∧ y₁ ≠ y₃ ∧ y₂ ≠ y₃ ∧ y₁ ≠ 0 ∧ y₂ ≠ 0 ∧ y₃ ≠ 0)
    (t rw' : F) (wCom : G) (hwC : wCom = rw' • E.base + t • vd.Gs.getD vd.ix.w 0)
    (ht : t = ((List.range' (260 * 10) (vd.ix.w - 260 * 10)).map fun i => aggCoef vd.linConstr r1 i * x i).sum) :
    ∃ (v2 rtv : ReadyToVerify F G) (merL merQ : E.St),
      publicStatement E tie v vd wCom = .ok (v2, st4) ∧
      finalStatement E v2 { vd with mer := st4 } = .ok (rtv, merL, merQ) ∧
      ∀ Fg : G, ∃ t₁ : LinTree F G,
        t₁.Accepted E.base rtv.linGs rtv.linStmnt rtv.linCnstr.equalsTo none rtv.linCom Fg [] [] [] ∧
        dot (t₁.extract.2.take rtv.linGs.length) rtv.linStmnt = 0 ∧
        t₁.extract.1 = rnd.lins.sum + rw' ∧
        ∀ i ∈ List.range' (260 * 10) (vd.ix.w + 1 - 260 * 10),
          coef ((keys v2.linCnstr.terms).zip (t₁.extract.2.take rtv.linGs.length)) i
            = if i = vd.ix.w then t else x i := by
  have hw := layout_w hix
  obtain ⟨v2, bs, a1, a2, a3, a4, a5, a6, a7, a8, a9, a10⟩ := publicStatement_spec E tie v vd
    wCom r1 r2 u
    rho st1 st2 st3 st4 260 (by omega) h1 h2 h3 h4 hC.r2 hne hs hk hC.last hn hI (by omega) hw2
  have hl := hO.lin hix
  have hkb : keys (bs ++ [(vd.ix.w, (-1 : F))]) = keys bs ++ [vd.ix.w] := by simp [keys]
  have hsb : Sorted (bs ++ [(vd.ix.w, (-1 : F))]) := by
    have := mapPut_append bs vd.ix.w (-1 : F) (fun i hi => (a3 i hi).2)
    rw [← this]; exact mapPut_sorted _ a2 _ _
  have hfs := finalStatement_ok E v2 { vd with mer := st4 } (260 * 10) (by omega) (by simp only; omega) hG hH
    (by
      simp only [a5]
      intro k hk
      rw [hkb] at hk
      rcases List.mem_append.1 hk with hk | hk
      · exact (a3 k hk).2.le
      · exact (List.mem_singleton.1 hk).le)
    (by simp only [a6]) _ _ a7 a8
  refine ⟨v2, _, _, _, a1, hfs, ?_⟩
  intro Fg
  clear hfs a1
  have hvis := hC.visible
  obtain ⟨N, hN⟩ : ∃ N, N = 260 * 10 := ⟨_, rfl⟩
  obtain ⟨w, hwd⟩ : ∃ w, w = vd.ix.w := ⟨_, rfl⟩
  simp only [← hN, ← hwd] at hw hw2 hG hH a3 a4 a5 a9 hl hkb hsb hwC hvis ht ⊢
  simp only [a5]
  obtain ⟨m, hm⟩ : ∃ m, m = bs ++ [(w, (-1 : F))] := ⟨_, rfl⟩
  simp only [← hm] at hsb hkb ⊢
  have hml : (m.map Prod.snd).length = ((keys m).map fun i => vd.Gs.getD i 0).length := by simp [keys]
  have hm0 : 1 ≤ m.length := by rw [hm]; simp
  have hmw : ∀ k ∈ keys m, N ≤ k ∧ k ≤ w := by
    intro k hk
    rw [hkb] at hk
    rcases List.mem_append.1 hk with hk | hk
    · have := a3 k hk; omega
    · have := List.mem_singleton.1 hk; omega
  have hlen : ((keys m).map fun i => vd.Gs.getD i 0).length = m.length := by simp [keys]
  have hbig : m.length ≤ 2 ^ 63 := by
    have h1 : (keys m).length ≤ (List.range' N (w + 1 - N)).length :=
      List.Nodup.length_le_of_subset (nodup_keys hsb) (fun k hk => by
        have := hmw k hk
        rw [List.mem_range'_1]; omega)
    simp only [keys, List.length_map, List.length_range'] at h1
    have : (2 : ℕ) ^ 31 ≤ 2 ^ 63 := Nat.pow_le_pow_right (by omega) (by omega)
    omega
  have hbw : ∀ i ∈ keys bs, i ≠ w := fun i hi => by have := a3 i hi; omega
  obtain ⟨xl, hxl⟩ : ∃ xl : ℕ → F, xl = fun i => if i = w then t else x i := ⟨_, rfl⟩
  -- the map of the extracted values
  have hzip : ∀ ks : List ℕ, ks.zip (ks.map xl) = tab ks xl := by
    intro ks
    induction ks with
    | nil => rfl
    | cons k ks ih => simp only [List.map_cons, List.zip_cons_cons, ih, tab]
  have hss : SortedSet (keys m) := by
    unfold Sorted at hsb
    unfold SortedSet keys
    rw [List.pairwise_map]
    exact hsb
  have hcf : ∀ i ∈ keys m, coef ((keys m).zip ((keys m).map xl)) i = xl i := by
    intro i hi
    rw [hzip, coef_tab hss _ _ hi]
  have hout : ∀ i, N ≤ i → i ≤ w → i ∉ keys m → xl i = 0 := by
    intro i hi1 hi2 hi3
    have hiw : i ≠ w := by rintro rfl; exact hi3 (by rw [hkb]; simp)
    have hib : i ∉ keys bs := fun h => hi3 (by rw [hkb]; simp [h])
    rw [hxl]
    simp only [if_neg hiw]
    rcases hvis i hi1 (by omega) with h | h
    · exact h
    · exact absurd (by rw [← a4 i hi1, coef_eq_zero _ _ hib]) h
  have hdot : dot ((keys m).map xl) (m.map Prod.snd) = 0 := by
    rw [dot_zip_coef m hsb _ (by simp [keys])]
    have e : ((keys m).map fun i => coef ((keys m).zip ((keys m).map xl)) i * coef m i)
        = (keys m).map fun i => xl i * coef m i := by
      apply List.map_congr_left
      intro i hi
      rw [hcf i hi]
    have hcw : coef m w = -1 := coef_of_mem _ hsb _ _ (by rw [hm]; simp)
    rw [e, hkb, List.map_append, List.sum_append]
    simp only [List.map_cons, List.map_nil, List.sum_cons, List.sum_nil, add_zero, hcw]
    have e3 : ((keys bs).map fun i => xl i * coef m i).sum
        = ((List.range' N (w - N)).map fun i => aggCoef vd.linConstr r1 i * x i).sum := by
      have : ((keys bs).map fun i => xl i * coef m i)
          = (keys bs).map fun i => aggCoef vd.linConstr r1 i * x i := by
        apply List.map_congr_left
        intro i hi
        rw [hxl]
        simp only
        rw [if_neg (hbw i hi), hm, coef_append, a4 i (a3 i hi).1]
        have : coef [(w, (-1 : F))] i = 0 := coef_eq_zero _ _ (by simp [keys, hbw i hi])
        rw [this]; ring
      rw [this]
      apply sum_subset_zero (nodup_keys a2) List.nodup_range'
      · intro i hi
        have := a3 i hi
        rw [List.mem_range'_1]; omega
      · intro i hi hn
        rw [List.mem_range'_1] at hi
        rw [← a4 i hi.1, coef_eq_zero _ _ hn, zero_mul]
    rw [e3, ← ht, hxl]
    simp only [if_true]
    ring
  have hop : v2.linCom = (rnd.lins.sum + rw') • E.base
      + mexp ((keys m).map xl) ((keys m).map fun i => vd.Gs.getD i 0) := by
    have hI : (List.range' N (w + 1 - N)) = List.range' N (w - N) ++ [w] := by
      have : w + 1 - N = (w - N) + 1 := by omega
      rw [this, List.range'_concat]
      congr 2; omega
    have hx : ((List.range' N (w + 1 - N)).map fun i => xl i • vd.Gs.getD i 0).sum
        = ((List.range' N (w - N)).map fun i => x i • vd.Gs.getD i 0).sum + t • vd.Gs.getD w 0 := by
      rw [hI, List.map_append, List.sum_append, hxl]
      congr 1
      · congr 1
        apply List.map_congr_left
        intro i hi
        rw [List.mem_range'_1] at hi
        simp only
        rw [if_neg (by omega)]
      · simp
    have hsub : ((keys m).map fun i => xl i • vd.Gs.getD i 0).sum
        = ((List.range' N (w + 1 - N)).map fun i => xl i • vd.Gs.getD i 0).sum := by
      apply sum_subset_zero (nodup_keys hsb) List.nodup_range'
      · intro i hi
        have := hmw i hi
        rw [List.mem_range'_1]; omega
      · intro i hi hn
        rw [List.mem_range'_1] at hi
        rw [hout i hi.1 (by omega) hn, zero_smul]
    have hmx : mexp ((keys m).map xl) ((keys m).map fun i => vd.Gs.getD i 0)
        = ((keys m).map fun i => xl i • vd.Gs.getD i 0).sum := by
      generalize keys m = ks
      induction ks with
      | nil => simp
      | cons k ks ih => rw [List.map_cons, List.map_cons, mexp_cons, ih, List.map_cons, List.sum_cons]
    rw [a9, hl, hwC, hmx, hsub, hx]
    module
  obtain ⟨t₁, c1, c2, c3⟩ := C13_linear_tree E.base ((keys m).map fun i => vd.Gs.getD i 0) (m.map Prod.snd) 0 none
    v2.linCom Fg (by rw [hlen]; exact hm0) (by rw [hlen]; exact hbig) hml (by intro o ho; cases ho) hF
    (rnd.lins.sum + rw') ((keys m).map xl) (by simp) (by
      rw [hdot, hop, Option.getD_none, mexp_nil_left]; module)
  refine ⟨t₁, c1, ?_, c2, ?_⟩
  · rw [c3]; exact hdot
  · intro i hi
    rw [c3]
    rw [List.mem_range'_1] at hi
    have hxi : xl i = if i = w then t else x i := by rw [hxl]
    rw [← hxi]
    by_cases h : i ∈ keys m
    · exact hcf i h
    · rw [hzip, hout i hi.1 (by omega) h]
      apply coef_eq_zero
      intro h'
      exact h (by simpa [keys, tab] using h')

end

/-- The hypotheses of `C87_linear_part` can be met, by a round whose values satisfy none of its constraints. -/
example (kay enn tee : ℕ) (hkay : 1 ≤ kay) (hs : (setIndexesNat kay 2 enn tee).w < 2 ^ 31)
    (tie : List (CompIter ℚ) → ℕ) (v : ReadyToVerify ℚ ℚ) :
    ∃ (vd : VerifierData ℚ ℚ (toyEnv 2).St) (x y : ℕ → ℚ) (rnd : Blocks ℚ) (st4 merL merQ : (toyEnv 2).St) (t wCom : ℚ)
      (v2 rtv : ReadyToVerify ℚ ℚ) (t₁ t₂ : LinTree ℚ ℚ),
      (∀ c ∈ vd.linConstr, ¬ LinSat c x) ∧
      BlocksOpen (toyEnv 2).base vd.Gs vd.Hs x y vd.ix kay 2 enn tee vd.com rnd ∧
      wCom = (3 : ℚ) • (toyEnv 2).base + t • vd.Gs.getD vd.ix.w 0 ∧
      publicStatement (toyEnv 2) tie v vd wCom = .ok (v2, st4) ∧
      finalStatement (toyEnv 2) v2 { vd with mer := st4 } = .ok (rtv, merL, merQ) ∧
      t₁.Accepted (toyEnv 2).base rtv.linGs rtv.linStmnt rtv.linCnstr.equalsTo none rtv.linCom 7 [] [] [] ∧
      t₂.Accepted (toyEnv 2).base rtv.linGs rtv.linStmnt rtv.linCnstr.equalsTo none rtv.linCom 11 [] [] [] := by
  obtain ⟨vd, x, y, rnd, st1, st2, st3, st4, j, b1, -, -, b4, b5, b6, b7, b8, b9, b10, b11, b12, b13, b14, b15, b16, b17,
    b18, -⟩ := toyRound_exists kay enn tee hkay hs
  obtain ⟨v2, rtv, merL, merQ, c1, c2, c3⟩ := C87_linear_conv (toyEnv 2) tie v vd kay enn tee x y rnd b4 b5 b6 b7 b8 b9 b10
    b11 b12 b13 2 2 2 2 st1 st2 st3 st4 b14 b15 b16 b17 b18
    ⟨1, 2, 3, by norm_num, by norm_num, by norm_num, by norm_num, by norm_num, by norm_num⟩ _ 3 _ rfl rfl
  obtain ⟨t₁, d1, -⟩ := c3 7
  obtain ⟨t₂, d2, -⟩ := c3 11
  exact ⟨vd, x, y, rnd, st4, merL, merQ, _, _, v2, rtv, t₁, t₂, b1, b13, rfl, c1, c2, d1, d2⟩

end Verif.Props
