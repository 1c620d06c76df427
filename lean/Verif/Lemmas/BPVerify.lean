/- Closed form of the verifiers. -/
import Verif.Lemmas.Vec
import Verif.Spec.Bulletproof

namespace Verif
open Spec

section
variable {F G : Type} [Field F] [AddCommGroup G] [Module F G]

/-- `n` elements are folded in `ell` levels, the first one with half-size `h`. -/
def Level (n h : Nat) : Nat → Prop
  | 0 => n = 1
  | m + 1 => h = 2 ^ m ∧ 2 ^ m < n ∧ n ≤ 2 ^ (m + 1)

theorem Level.next {n h m : Nat} (hl : Level n h (m + 1)) : Level h (h / 2) m := by
  obtain ⟨h1, _, _⟩ := hl
  subst h1
  cases m with
  | zero => simp [Level]
  | succ m =>
    refine ⟨?_, ?_, le_rfl⟩
    · simp [pow_succ]
    · exact Nat.pow_lt_pow_right (by omega) (by omega)

theorem Level.le {n h ell : Nat} (hl : Level n h ell) : n ≤ 2 ^ ell := by
  cases ell with
  | zero => simp [Level] at hl; simp [hl]
  | succ m => exact hl.2.2

theorem Level.half {n h m : Nat} (hl : Level n h (m + 1)) : h < n ∧ n ≤ h + h ∧ 1 < n ∧ h = 2 ^ m := by
  obtain ⟨h1, h2, h3⟩ := hl
  have := Nat.two_pow_pos m
  simp [pow_succ] at h3
  omega

theorem level_log {n : Nat} (h1 : 1 ≤ n) (h2 : n ≤ 2 ^ 63) :
    Level n (next2power n / 2) (log2roundUp n) := by
  rcases Nat.lt_or_ge 1 n with h | h
  · have h0 := log2roundUp_half_lt h
    obtain ⟨m, hm⟩ : ∃ m, log2roundUp n = m + 1 := ⟨log2roundUp n - 1, by omega⟩
    rw [hm]
    refine ⟨?_, ?_, ?_⟩
    · rw [next2power_half h h2, hm]; simp
    · have := h0.2; rw [hm] at this; simpa using this
    · rw [← hm]; exact (log2roundUp_le h2).2
  · have : n = 1 := by omega
    subst this
    have : log2roundUp 1 = 0 := log2roundUp_two_pow (k := 0) (by omega)
    rw [this]; rfl

theorem foldedSum_eq (xs : List F) (gs : List G) (h : gs.length ≤ 2 ^ xs.length) :
    foldedSum xs gs = mexp (spL xs) gs := by
  unfold foldedSum
  rw [← mexp_take_left (spL xs) gs gs.length le_rfl]
  congr 1
  apply List.ext_getElem
  · simp [h]
  · intro i h1 h2
    simp at h1 h2
    simp [getElem_spL xs i h2.2]

theorem foldAll_length (xs : List F) (gs : List G) (h1 : 1 ≤ gs.length) (h2 : gs.length ≤ 2 ^ xs.length) :
    (foldAll xs gs).length = 1 := by
  induction xs generalizing gs with
  | nil => simp [foldAll] at h2 ⊢; omega
  | cons x xs ih =>
    simp only [foldAll]
    apply ih
    · simp; exact ⟨Nat.two_pow_pos _, h1⟩
    · simp

theorem foldAll_singleton (xs : List F) (gs : List G) (h1 : 1 ≤ gs.length)
    (h2 : gs.length ≤ 2 ^ xs.length) : foldAll xs gs = [foldedSum xs gs] := by
  have hl := foldAll_length xs gs h1 h2
  rw [foldedSum_eq xs gs h2, mexp_spL_foldAll xs gs h2]
  match h : foldAll xs gs, hl with
  | [a], _ => simp

variable [DecidableEq F] [DecidableEq G]

@[simp] theorem length_foldChallenges (E : Env F G) (n : Nat) (st : E.St) (Ls Rs : List G) :
    (foldChallenges E n st Ls Rs).1.length = min Ls.length Rs.length := by
  induction Ls generalizing n st Rs with
  | nil => cases Rs <;> simp [foldChallenges]
  | cons L Ls ih => cases Rs with
    | nil => simp [foldChallenges]
    | cons R Rs => simp [foldChallenges, ih]

theorem verifyLinLoop_eq (E : Env F G) (Ls Rs : List G) (ell : Nat) :
    ∀ (n h ii : Nat) (bs : List F) (st : E.St), Level n h ell → bs.length = n →
      Ls.length = ii + ell → Rs.length = ii + ell →
      verifyLinLoop E Ls Rs n h ii bs st =
        (let c := foldChallenges E n st (Ls.drop ii) (Rs.drop ii)
         if 0 ∈ c.1 then .throw else .ok (c.1, c.1.map (·⁻¹), foldAll c.1 bs, c.2)) := by
  induction ell with
  | zero =>
    intro n h ii bs st hl hb hL hR
    have hn : n = 1 := hl
    subst hn
    rw [verifyLinLoop, if_neg (by omega)]
    rw [List.drop_of_length_le (by omega : Ls.length ≤ ii)]
    simp [foldChallenges, foldAll]
  | succ m ih =>
    intro n h ii bs st hl hb hL hR
    obtain ⟨hh1, hh2, hh3, hh4⟩ := hl.half
    rw [verifyLinLoop, if_pos hh3, rd_ok (by omega : ii < Ls.length), rd_ok (by omega : ii < Rs.length)]
    have hdL : Ls.drop ii = Ls[ii] :: Ls.drop (ii + 1) := List.drop_eq_getElem_cons (by omega)
    have hdR : Rs.drop ii = Rs[ii] :: Rs.drop (ii + 1) := List.drop_eq_getElem_cons (by omega)
    have hlen : (Ls.drop (ii + 1)).length = m := by simp; omega
    obtain ⟨ch, hch⟩ : ∃ ch, ch = E.challenge (E.commit (E.commit st (decBytes n ++ [76])
      (E.pointBytes Ls[ii])) [82] (E.pointBytes Rs[ii])) [120] 64 := ⟨_, rfl⟩
    obtain ⟨c, hc⟩ : ∃ c, c = foldChallenges E h ch.2 (Ls.drop (ii + 1)) (Rs.drop (ii + 1)) := ⟨_, rfl⟩
    have hfc : foldChallenges E n st (Ls.drop ii) (Rs.drop ii) = (E.scalarReduce ch.1 :: c.1, c.2) := by
      rw [hdL, hdR, foldChallenges, hlen, ← hh4, hc, hch]
    rw [hfc]
    simp only [Res.ok_bind, Env.processPoint, Env.newChallenge, lblL, lblR, lblx, inverseOf, ← hch]
    by_cases hx : E.scalarReduce ch.1 = 0
    · simp [hx]
    · rw [if_neg hx]
      simp only [Res.ok_bind]
      rw [rdN_ok (by simp; omega)]
      simp only [Res.ok_bind]
      have hfold : (addInto bs (List.map (fun b => b * E.scalarReduce ch.1)
          (List.take (n - h) (List.drop h bs)))).take h = foldP h (E.scalarReduce ch.1) bs := by
        rw [List.take_of_length_le (l := bs.drop h) (by simp; omega), take_addInto, ← foldS_eq_foldP]
        rfl
      rw [hfold, ih h (h / 2) (ii + 1) _ ch.2 hl.next (by simp; omega) (by omega) (by omega)]
      rw [← hc]
      simp only
      have hc1 : c.1.length = m := by
        rw [hc]; simp; omega
      by_cases h0 : (0 : F) ∈ c.1
      · simp [h0]
      · have : ¬(0 ∈ E.scalarReduce ch.1 :: c.1) := by
          rw [List.mem_cons]
          rintro (h | h)
          · exact hx h.symm
          · exact h0 h
        rw [if_neg h0, if_neg this]
        simp [foldAll, hc1, hh4]

theorem verifyQuadLoop_eq (E : Env F G) (Ls Rs : List G) (ell : Nat) :
    ∀ (n h ii : Nat) (st : E.St), Level n h ell →
      Ls.length = ii + ell → Rs.length = ii + ell →
      verifyQuadLoop E Ls Rs n h ii st =
        (let c := foldChallenges E n st (Ls.drop ii) (Rs.drop ii)
         if 0 ∈ c.1 then .throw else .ok (c.1, c.1.map (·⁻¹), c.2)) := by
  induction ell with
  | zero =>
    intro n h ii st hl hL hR
    have hn : n = 1 := hl
    subst hn
    rw [verifyQuadLoop, if_neg (by omega)]
    rw [List.drop_of_length_le (by omega : Ls.length ≤ ii)]
    simp [foldChallenges]
  | succ m ih =>
    intro n h ii st hl hL hR
    obtain ⟨hh1, hh2, hh3, hh4⟩ := hl.half
    rw [verifyQuadLoop, if_pos hh3, rd_ok (by omega : ii < Ls.length), rd_ok (by omega : ii < Rs.length)]
    have hdL : Ls.drop ii = Ls[ii] :: Ls.drop (ii + 1) := List.drop_eq_getElem_cons (by omega)
    have hdR : Rs.drop ii = Rs[ii] :: Rs.drop (ii + 1) := List.drop_eq_getElem_cons (by omega)
    have hlen : (Ls.drop (ii + 1)).length = m := by simp; omega
    obtain ⟨ch, hch⟩ : ∃ ch, ch = E.challenge (E.commit (E.commit st (decBytes n ++ [76])
      (E.pointBytes Ls[ii])) [82] (E.pointBytes Rs[ii])) [120] 64 := ⟨_, rfl⟩
    obtain ⟨c, hc⟩ : ∃ c, c = foldChallenges E h ch.2 (Ls.drop (ii + 1)) (Rs.drop (ii + 1)) := ⟨_, rfl⟩
    have hfc : foldChallenges E n st (Ls.drop ii) (Rs.drop ii) = (E.scalarReduce ch.1 :: c.1, c.2) := by
      rw [hdL, hdR, foldChallenges, hlen, ← hh4, hc, hch]
    rw [hfc]
    simp only [Res.ok_bind, Env.processPoint, Env.newChallenge, lblL, lblR, lblx, inverseOf, ← hch]
    by_cases hx : E.scalarReduce ch.1 = 0
    · simp [hx]
    · rw [if_neg hx]
      simp only [Res.ok_bind]
      rw [ih h (h / 2) (ii + 1) ch.2 hl.next (by omega) (by omega)]
      rw [← hc]
      simp only
      by_cases h0 : (0 : F) ∈ c.1
      · simp [h0]
      · have : ¬(0 ∈ E.scalarReduce ch.1 :: c.1) := by
          rw [List.mem_cons]
          rintro (h | h)
          · exact hx h.symm
          · exact h0 h
        rw [if_neg h0, if_neg this]
        simp

omit [DecidableEq F] [DecidableEq G] in
theorem expSubsetProduct_none (gs : List G) (xs : List F) (a : F) {n : Nat} (hn : n = gs.length)
    (h1 : n ≤ 2 ^ 63) (hx : log2roundUp n = xs.length) :
    expSubsetProduct gs n xs a none = .ok (a • foldedSum xs gs) := by
  subst hn
  have hle := (log2roundUp_le h1).2
  rw [expSubsetProduct, subsetProduct_eq _ _ _ _ (by omega) h1 hle]
  simp only [Res.ok_bind]
  rw [multiExp_ok le_rfl (by simp; rw [← hx]; simpa using hle)]
  congr 1
  rw [foldedSum_eq _ _ (by rw [← hx]; exact hle)]
  rw [hx, List.take_length, List.take_length, mexp_take_left _ _ _ le_rfl]
  have : (fun z : F => a * z) = fun z => z * a := by funext z; ring
  rw [this, mexp_smul_left, mexp_take_left _ _ _ le_rfl]

omit [DecidableEq F] [DecidableEq G] in
theorem expSubsetProduct_some (gs : List G) (xs : List F) (a : F) (off : List F) {n : Nat}
    (hn : n = gs.length) (h1 : n ≤ 2 ^ 63) (hx : log2roundUp n = xs.length) (ho : n ≤ off.length) :
    expSubsetProduct gs n xs a (some off) = .ok (a • foldedSum xs gs + mexp off gs) := by
  subst hn
  have hle := (log2roundUp_le h1).2
  rw [expSubsetProduct, subsetProduct_eq _ _ _ _ (by omega) h1 hle]
  simp only [Res.ok_bind]
  rw [rdN_ok ho]
  simp only [Res.ok_bind]
  rw [multiExp_ok le_rfl (by simp; rw [← hx]; simpa using hle)]
  congr 1
  rw [foldedSum_eq _ _ (by rw [← hx]; exact hle)]
  rw [hx, List.take_length, List.take_length, mexp_take_left _ _ _ le_rfl]
  rw [mexp_addInto_left _ (by simp; rw [← hx]; simp [hle]), mexp_take_left _ _ _ le_rfl]
  have : (fun z : F => a * z) = fun z => z * a := by funext z; ring
  rw [this, mexp_smul_left, mexp_take_left _ _ _ le_rfl]

/-- Offsets as a list: a null pointer means no offsets. -/
def offList (o : Option (List F)) : List F := o.getD []

theorem verifyLinear_len (E : Env F G) (pf : LinPf F G) (bs : List F) (gs : List G) (n : Nat) (eq : F)
    (st : E.St) (off : Option (List F))
    (h : pf.Ls.length ≠ log2roundUp n ∨ pf.Rs.length ≠ log2roundUp n) :
    verifyLinear E pf bs gs n eq st off = .throw := by
  simp only [verifyLinear]
  rw [if_pos h]

theorem verifyLinear_zero (E : Env F G) (pf : LinPf F G) (bs : List F) (gs : List G) (n : Nat) (eq : F)
    (st : E.St) (off : Option (List F)) (hn1 : 1 ≤ n) (hn2 : n ≤ 2 ^ 63) (hb : bs.length = n)
    (h0 : 0 ∈ (deriveLin E pf n st).xs ∨ (deriveLin E pf n st).x = 0) :
    verifyLinear E pf bs gs n eq st off = .throw := by
  by_cases hlen : pf.Ls.length ≠ log2roundUp n ∨ pf.Rs.length ≠ log2roundUp n
  · exact verifyLinear_len E pf bs gs n eq st off hlen
  simp only [verifyLinear, Env.newGenerator, Env.processPoint, lblC, lblF, lblS, lblx, Env.newChallenge]
  rw [if_neg hlen, verifyLinLoop_eq E pf.Ls pf.Rs (log2roundUp n) n _ 0 bs _ (level_log hn1 hn2) hb
    (by omega) (by omega)]
  simp only [List.drop_zero]
  simp only [deriveLin] at h0
  obtain ⟨c, hc⟩ : ∃ c, c = foldChallenges E n
    (E.challenge (E.commit st [67] (E.pointBytes pf.C)) [70] 32).2 pf.Ls pf.Rs := ⟨_, rfl⟩
  simp only [← hc] at h0 ⊢
  have hcl : c.1.length = log2roundUp n := by rw [hc]; simp; omega
  by_cases hx : (0 : F) ∈ c.1
  · rw [if_pos hx]; rfl
  · rw [if_neg hx]
    simp only [Res.ok_bind]
    rw [multiExp_ok le_rfl (by omega), multiExp_ok le_rfl (by simp; omega)]
    have h0' := h0.resolve_left hx
    simp only [Res.ok_bind, inverseOf]
    rw [if_pos h0']
    rfl

theorem verifyLinear_eq (E : Env F G) (pf : LinPf F G) (bs : List F) (gs : List G) (n : Nat) (eq : F)
    (st : E.St) (off : Option (List F)) (hn1 : 1 ≤ n) (hn2 : n ≤ 2 ^ 63) (hb : bs.length = n)
    (hg : gs.length = n) (ho : ∀ o, off = some o → o.length = n)
    (hL : pf.Ls.length = log2roundUp n) (hR : pf.Rs.length = log2roundUp n)
    (h0 : 0 ∉ (deriveLin E pf n st).xs) (hx : (deriveLin E pf n st).x ≠ 0) :
    ∃ b, verifyLinear E pf bs gs n eq st off = .ok (b, (deriveLin E pf n st).st) ∧
      (b = true ↔ LinEq E pf bs gs eq (offList off) (deriveLin E pf n st)) := by
  have hlen : ¬(pf.Ls.length ≠ log2roundUp n ∨ pf.Rs.length ≠ log2roundUp n) := by omega
  simp only [verifyLinear, Env.newGenerator, Env.processPoint, lblC, lblF, lblS, lblx, Env.newChallenge]
  rw [if_neg hlen, verifyLinLoop_eq E pf.Ls pf.Rs (log2roundUp n) n _ 0 bs _ (level_log hn1 hn2) hb
    (by omega) (by omega)]
  simp only [List.drop_zero]
  simp only [deriveLin] at h0 hx ⊢
  obtain ⟨f, hf⟩ : ∃ f, f = E.challenge (E.commit st [67] (E.pointBytes pf.C)) [70] 32 := ⟨_, rfl⟩
  simp only [← hf] at h0 hx ⊢
  obtain ⟨c, hc⟩ : ∃ c, c = foldChallenges E n f.2 pf.Ls pf.Rs := ⟨_, rfl⟩
  simp only [← hc] at h0 hx ⊢
  have hcl : c.1.length = log2roundUp n := by rw [hc]; simp; omega
  obtain ⟨ch, hch⟩ : ∃ ch, ch = E.challenge (E.commit c.2 [83] (E.pointBytes pf.S)) [120] 64 := ⟨_, rfl⟩
  simp only [← hch] at hx ⊢
  rw [if_neg h0]
  simp only [Res.ok_bind]
  rw [multiExp_ok le_rfl (by omega), multiExp_ok le_rfl (by simp; omega)]
  simp only [Res.ok_bind, inverseOf, ← hch]
  rw [if_neg hx]
  simp only [Res.ok_bind]
  have hle := (log2roundUp_le hn2).2
  rw [foldAll_singleton c.1 bs (by omega) (by rw [hcl]; omega)]
  have hfin : ∀ tmp : G,
      tmp = pf.a • foldedSum c.1 gs + E.scalarReduce ch.1 • mexp (offList off) gs →
      ∃ b, (do let b0 ← rd [foldedSum c.1 bs] 0
               Res.ok (decide (pf.S + E.scalarReduce ch.1 • (pf.C + eq • E.fromUniform f.1 +
              (mexp (List.take pf.Ls.length c.1) (List.take pf.Ls.length pf.Ls) +
                mexp (List.take pf.Rs.length (List.map (fun x => x⁻¹) c.1)) (List.take pf.Rs.length pf.Rs))) =
            pf.r • E.base + (pf.a * b0) • E.fromUniform f.1 + tmp), ch.2)) =
        Res.ok (b, ch.2) ∧ (b = true ↔ LinEq E pf bs gs eq (offList off)
          ⟨E.fromUniform f.1, c.1, E.scalarReduce ch.1, ch.2⟩) := by
    intro tmp htmp
    rw [rd_ok (by simp)]
    refine ⟨_, rfl, ?_⟩
    rw [decide_eq_true_eq]
    unfold LinEq
    simp only [List.getElem_cons_zero]
    rw [htmp, List.take_length, List.take_length, mexp_take_left _ _ _ le_rfl,
      mexp_take_left _ _ _ le_rfl, add_assoc (pf.C + _)]
  cases off with
  | none =>
    simp only [Res.ok_bind]
    rw [expSubsetProduct_none gs c.1 pf.a hg.symm hn2 hcl.symm]
    simp only [Res.ok_bind]
    exact hfin _ (by simp [offList])
  | some o =>
    have hol := ho o rfl
    simp only [Res.ok_bind]
    rw [rdN_ok (by omega)]
    simp only [Res.ok_bind]
    rw [expSubsetProduct_some gs c.1 pf.a _ hg.symm hn2 hcl.symm (by simp; omega)]
    simp only [Res.ok_bind]
    refine hfin _ ?_
    rw [mexp_smul_left, List.take_of_length_le (by omega)]
    simp [offList]

theorem verifyQuadratic_len (E : Env F G) (pf : QuadPf F G) (gs hs : List G) (n : Nat) (eq : F)
    (st : E.St) (uoff voff : Option (List F))
    (h : pf.Ls.length ≠ log2roundUp n ∨ pf.Rs.length ≠ log2roundUp n) :
    verifyQuadratic E pf gs hs n eq st uoff voff = .throw := by
  simp only [verifyQuadratic]
  rw [if_pos h]

theorem verifyQuadratic_zero (E : Env F G) (pf : QuadPf F G) (gs hs : List G) (n : Nat) (eq : F)
    (st : E.St) (uoff voff : Option (List F)) (hn1 : 1 ≤ n) (hn2 : n ≤ 2 ^ 63)
    (h0 : 0 ∈ (deriveQuad E pf n st).xs) :
    verifyQuadratic E pf gs hs n eq st uoff voff = .throw := by
  by_cases hlen : pf.Ls.length ≠ log2roundUp n ∨ pf.Rs.length ≠ log2roundUp n
  · exact verifyQuadratic_len E pf gs hs n eq st uoff voff hlen
  simp only [verifyQuadratic, Env.newGenerator, Env.processPoint, lblC, lblF, lblS1, lblS2, lblx, Env.newChallenge]
  rw [if_neg hlen, verifyQuadLoop_eq E pf.Ls pf.Rs (log2roundUp n) n _ 0 _ (level_log hn1 hn2)
    (by omega) (by omega)]
  simp only [List.drop_zero]
  simp only [deriveQuad] at h0
  rw [if_pos h0]
  rfl

theorem verifyQuadratic_eq (E : Env F G) (pf : QuadPf F G) (gs hs : List G) (n : Nat) (eq : F)
    (st : E.St) (uoff voff : Option (List F)) (hn1 : 1 ≤ n) (hn2 : n ≤ 2 ^ 63) (hg : gs.length = n)
    (hh : hs.length = n) (hu : ∀ o, uoff = some o → o.length = n) (hv : ∀ o, voff = some o → o.length = n)
    (hL : pf.Ls.length = log2roundUp n) (hR : pf.Rs.length = log2roundUp n)
    (h0 : 0 ∉ (deriveQuad E pf n st).xs) :
    ∃ b, verifyQuadratic E pf gs hs n eq st uoff voff = .ok (b, (deriveQuad E pf n st).st) ∧
      (b = true ↔ QuadEq E pf gs hs eq (offList uoff) (offList voff) (deriveQuad E pf n st)) := by
  have hlen : ¬(pf.Ls.length ≠ log2roundUp n ∨ pf.Rs.length ≠ log2roundUp n) := by omega
  simp only [verifyQuadratic, Env.newGenerator, Env.processPoint, lblC, lblF, lblS1, lblS2, lblx, Env.newChallenge]
  rw [if_neg hlen, verifyQuadLoop_eq E pf.Ls pf.Rs (log2roundUp n) n _ 0 _ (level_log hn1 hn2) (by omega) (by omega)]
  simp only [List.drop_zero]
  simp only [deriveQuad] at h0 ⊢
  obtain ⟨f, hf⟩ : ∃ f, f = E.challenge (E.commit st [67] (E.pointBytes pf.C)) [70] 32 := ⟨_, rfl⟩
  simp only [← hf] at h0 ⊢
  obtain ⟨c, hc⟩ : ∃ c, c = foldChallenges E n f.2 pf.Ls pf.Rs := ⟨_, rfl⟩
  simp only [← hc] at h0 ⊢
  have hcl : c.1.length = log2roundUp n := by rw [hc]; simp; omega
  rw [if_neg h0]
  simp only [Res.ok_bind]
  rw [multiExp_ok le_rfl (by omega), multiExp_ok le_rfl (by simp; omega)]
  simp only [Res.ok_bind]
  have hG : expSubsetProduct gs n c.1 pf.a uoff =
      .ok (pf.a • foldedSum c.1 gs + mexp (offList uoff) gs) := by
    cases uoff with
    | none => rw [expSubsetProduct_none gs c.1 pf.a hg.symm hn2 hcl.symm]; simp [offList]
    | some o =>
      rw [expSubsetProduct_some gs c.1 pf.a _ hg.symm hn2 hcl.symm (by have := hu o rfl; omega)]
      simp [offList]
  have hH : expSubsetProduct hs n (c.1.map (·⁻¹)) pf.b voff =
      .ok (pf.b • foldedSum (c.1.map (·⁻¹)) hs + mexp (offList voff) hs) := by
    cases voff with
    | none => rw [expSubsetProduct_none hs _ pf.b hh.symm hn2 (by simp [hcl])]; simp [offList]
    | some o =>
      rw [expSubsetProduct_some hs _ pf.b _ hh.symm hn2 (by simp [hcl]) (by have := hv o rfl; omega)]
      simp [offList]
  rw [hG, hH]
  refine ⟨_, rfl, ?_⟩
  rw [decide_eq_true_eq]
  unfold QuadEq
  simp only
  rw [List.take_length, List.take_length, mexp_take_left _ _ _ le_rfl, mexp_take_left _ _ _ le_rfl,
    smul_add, smul_smul]
  simp only [add_assoc]

end

end Verif
