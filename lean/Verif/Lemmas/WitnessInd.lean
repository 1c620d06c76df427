/- Which coins make the provers output a given proof. -/
import Verif.Lemmas.BPComplete

namespace Verif
open Spec

section
variable {F G : Type} [Field F] [AddCommGroup G] [Module F G] [DecidableEq F] [DecidableEq G]

/-- Exactly one choice of the coins of the folding loop of the linear prover produces given
points, whatever the vectors being folded. -/
theorem linLoop_coins (E : Env F G) (hB : Function.Bijective (fun s : F => s • E.base)) (Fg : G) (ell : Nat) :
    ∀ (n h : Nat) (s : LinProverState F G E.St) (Lt Rt : List G), Level n h ell → s.as.length = n →
      s.bs.length = n → s.gs.length = n → Lt.length = ell → Rt.length = ell →
      0 ∉ (foldChallenges E n s.st Lt Rt).1 →
      ∃ cs : Nat → F × F, ∀ coins : Nat → F × F,
        (∃ e, proveLinLoop E coins Fg n h s = .ok e ∧ e.Ls = s.Ls ++ Lt ∧ e.Rs = s.Rs ++ Rt) ↔
          ∀ i < ell, coins (s.k + i) = cs i := by
  induction ell with
  | zero =>
    intro n h s Lt Rt hl ha hb hg hL hR hz
    have hn : n = 1 := hl
    subst hn
    refine ⟨fun _ => 0, fun coins => ⟨fun _ i hi => absurd hi (by omega), fun _ => ⟨s, ?_, ?_, ?_⟩⟩⟩
    · rw [proveLinLoop, if_neg (by omega)]
    · rw [List.length_eq_zero_iff.1 hL, List.append_nil]
    · rw [List.length_eq_zero_iff.1 hR, List.append_nil]
  | succ m ih =>
    intro n h s Lt Rt hl ha hb hg hL hR hz
    obtain ⟨hh1, hh2, hh3, hh4⟩ := hl.half
    obtain ⟨L0, Lt, rfl⟩ : ∃ a l, Lt = a :: l := List.exists_cons_of_length_eq_add_one hL
    obtain ⟨R0, Rt, rfl⟩ : ∃ a l, Rt = a :: l := List.exists_cons_of_length_eq_add_one hR
    simp only [List.length_cons, Nat.add_right_cancel_iff] at hL hR
    obtain ⟨u, hu⟩ := hB.2 (L0 - (mexp (s.as.take h) (s.gs.drop h)
          + dot (s.as.take h) (s.bs.drop h) • Fg))
    obtain ⟨v, hv⟩ := hB.2 (R0 - (mexp (s.as.drop h) (s.gs.take h)
          + dot (s.as.drop h) (s.bs.take h) • Fg))
    simp only at hu hv
    rw [foldChallenges_cons, hL, ← hh4] at hz
    obtain ⟨ch, hch⟩ : ∃ ch, ch = E.challenge (E.commit (E.commit s.st (decBytes n ++ [76])
      (E.pointBytes L0)) [82] (E.pointBytes R0)) [120] 64 := ⟨_, rfl⟩
    simp only [← hch, List.mem_cons, not_or] at hz
    have hx : E.scalarReduce ch.1 ≠ 0 := fun h => hz.1 h.symm
    obtain ⟨s', hs'⟩ : ∃ s' : LinProverState F G E.St, s' =
      ⟨s.Ls ++ [L0], s.Rs ++ [R0], foldS h (E.scalarReduce ch.1)⁻¹ s.as,
          foldS h (E.scalarReduce ch.1) s.bs, foldP h (E.scalarReduce ch.1) s.gs,
            s.r + (u * (E.scalarReduce ch.1) + v * (E.scalarReduce ch.1)⁻¹),
            ch.2, s.k + 1⟩ := ⟨_, rfl⟩
    obtain ⟨cs, hcs⟩ := ih h (h / 2) s' Lt Rt hl.next (by rw [hs']; simp; omega) (by rw [hs']; simp; omega)
      (by rw [hs']; simp; omega) hL hR (by rw [hs']; exact hz.2)
    have hk : s'.k = s.k + 1 := by rw [hs']
    have hsL : s'.Ls ++ Lt = s.Ls ++ (L0 :: Lt) := by rw [hs']; simp
    have hsR : s'.Rs ++ Rt = s.Rs ++ (R0 :: Rt) := by rw [hs']; simp
    rw [hsL, hsR, hk] at hcs
    refine ⟨fun i => match i with | 0 => (u, v) | i + 1 => cs i, fun coins => ?_⟩
    obtain ⟨L, R, hLe, hRe, h0, h1⟩ := proveLinLoop_step E coins Fg s hl ha hb hg
    have key : L = L0 ∧ R = R0 ↔ coins s.k = (u, v) := by
      constructor
      · rintro ⟨h1, h2⟩
        refine Prod.ext (hB.1 ?_) (hB.1 ?_)
        · simp only; rw [hu, ← h1, hLe]; abel
        · simp only; rw [hv, ← h2, hRe]; abel
      · intro hc
        rw [hc] at hLe hRe
        simp only at hLe hRe
        rw [hu] at hLe
        rw [hv] at hRe
        exact ⟨by rw [hLe]; abel, by rw [hRe]; abel⟩
    have go : coins s.k = (u, v) → proveLinLoop E coins Fg n h s = proveLinLoop E coins Fg h (h / 2) s' := by
      intro hc
      obtain ⟨rfl, rfl⟩ := key.2 hc
      rw [← hch] at h1
      rw [h1 hx, hs', hc]
    have fin : (∀ i < m + 1, coins (s.k + i) = (match i with | 0 => (u, v) | i + 1 => cs i : F × F)) ↔
        coins s.k = (u, v) ∧ ∀ i < m, coins (s.k + 1 + i) = cs i := by
      constructor
      · intro h
        refine ⟨h 0 (by omega), fun i hi => ?_⟩
        have : coins (s.k + (i + 1)) = cs i := h (i + 1) (by omega)
        rw [← this]; congr 1; omega
      · rintro ⟨h0, h⟩ i hi
        cases i with
        | zero => exact h0
        | succ i =>
          have : coins (s.k + 1 + i) = cs i := h i (by omega)
          simp only
          rw [← this]; congr 1; omega
    rw [fin]
    constructor
    · rintro ⟨e, he, heL, heR⟩
      have hc : coins s.k = (u, v) := by
        generalize E.challenge (E.commit (E.commit s.st (decBytes n ++ [76])
            (E.pointBytes L)) [82] (E.pointBytes R)) [120] 64 = ch' at h0 h1
        obtain ⟨x', hx'e⟩ : ∃ x', x' = E.scalarReduce ch'.1 := ⟨_, rfl⟩
        simp only [← hx'e] at h0 h1
        by_cases hx' : x' = 0
        · rw [h0 hx'] at he; cases he
        · rw [h1 hx'] at he
          rcases proveLinLoop_spec E coins Fg m h (h / 2)
            ⟨s.Ls ++ [L], s.Rs ++ [R], foldS h x'⁻¹ s.as, foldS h x' s.bs, foldP h x' s.gs,
              s.r + ((coins s.k).1 * x' + (coins s.k).2 * x'⁻¹), ch'.2, s.k + 1⟩
            hl.next (by simp; omega) (by simp; omega)
            (by simp; omega) with ⟨ht, -⟩ | ⟨e', Ls, Rs, xs, he', -, -, -, -, heL', heR', -⟩
          · rw [he] at ht; cases ht
          · rw [he] at he'
            obtain rfl := Res.ok.inj he'
            refine key.1 ⟨?_, ?_⟩
            · rw [heL] at heL'
              simp only [List.append_assoc, List.append_cancel_left_eq, List.singleton_append,
                List.cons.injEq] at heL'
              exact heL'.1.symm
            · rw [heR] at heR'
              simp only [List.append_assoc, List.append_cancel_left_eq, List.singleton_append,
                List.cons.injEq] at heR'
              exact heR'.1.symm
      exact ⟨hc, (hcs coins).1 ⟨e, by rw [← go hc]; exact he, heL, heR⟩⟩
    · rintro ⟨hc, hi⟩
      rw [go hc]
      exact (hcs coins).2 hi

/-- The same for the folding loop of the quadratic prover. -/
theorem quadLoop_coins (E : Env F G) (hB : Function.Bijective (fun s : F => s • E.base)) (Fg : G) (ell : Nat) :
    ∀ (n h : Nat) (s : QuadProverState F G E.St) (Lt Rt : List G), Level n h ell → s.as.length = n →
      s.bs.length = n → s.gs.length = n → s.hs.length = n → Lt.length = ell → Rt.length = ell →
      0 ∉ (foldChallenges E n s.st Lt Rt).1 →
      ∃ cs : Nat → F × F, ∀ coins : Nat → F × F,
        (∃ e, proveQuadLoop E coins Fg n h s = .ok e ∧ e.Ls = s.Ls ++ Lt ∧ e.Rs = s.Rs ++ Rt) ↔
          ∀ i < ell, coins (s.k + i) = cs i := by
  induction ell with
  | zero =>
    intro n h s Lt Rt hl ha hb hg hhs hL hR hz
    have hn : n = 1 := hl
    subst hn
    refine ⟨fun _ => 0, fun coins => ⟨fun _ i hi => absurd hi (by omega), fun _ => ⟨s, ?_, ?_, ?_⟩⟩⟩
    · rw [proveQuadLoop, if_neg (by omega)]
    · rw [List.length_eq_zero_iff.1 hL, List.append_nil]
    · rw [List.length_eq_zero_iff.1 hR, List.append_nil]
  | succ m ih =>
    intro n h s Lt Rt hl ha hb hg hhs hL hR hz
    obtain ⟨hh1, hh2, hh3, hh4⟩ := hl.half
    obtain ⟨L0, Lt, rfl⟩ : ∃ a l, Lt = a :: l := List.exists_cons_of_length_eq_add_one hL
    obtain ⟨R0, Rt, rfl⟩ : ∃ a l, Rt = a :: l := List.exists_cons_of_length_eq_add_one hR
    simp only [List.length_cons, Nat.add_right_cancel_iff] at hL hR
    obtain ⟨u, hu⟩ := hB.2 (L0 - (mexp (s.as.take h) (s.gs.drop h) + mexp (s.bs.drop h) (s.hs.take h)
          + dot (s.as.take h) (s.bs.drop h) • Fg))
    obtain ⟨v, hv⟩ := hB.2 (R0 - (mexp (s.as.drop h) (s.gs.take h) + mexp (s.bs.take h) (s.hs.drop h)
          + dot (s.as.drop h) (s.bs.take h) • Fg))
    simp only at hu hv
    rw [foldChallenges_cons, hL, ← hh4] at hz
    obtain ⟨ch, hch⟩ : ∃ ch, ch = E.challenge (E.commit (E.commit s.st (decBytes n ++ [76])
      (E.pointBytes L0)) [82] (E.pointBytes R0)) [120] 64 := ⟨_, rfl⟩
    simp only [← hch, List.mem_cons, not_or] at hz
    have hx : E.scalarReduce ch.1 ≠ 0 := fun h => hz.1 h.symm
    obtain ⟨s', hs'⟩ : ∃ s' : QuadProverState F G E.St, s' =
      ⟨s.Ls ++ [L0], s.Rs ++ [R0], foldP h (E.scalarReduce ch.1) s.gs, foldS h (E.scalarReduce ch.1)⁻¹ s.as,
          foldP h (E.scalarReduce ch.1)⁻¹ s.hs, foldS h (E.scalarReduce ch.1) s.bs,
            s.r + (u * (E.scalarReduce ch.1) + v * (E.scalarReduce ch.1)⁻¹),
            ch.2, s.k + 1⟩ := ⟨_, rfl⟩
    obtain ⟨cs, hcs⟩ := ih h (h / 2) s' Lt Rt hl.next (by rw [hs']; simp; omega) (by rw [hs']; simp; omega)
      (by rw [hs']; simp; omega) (by rw [hs']; simp; omega) hL hR (by rw [hs']; exact hz.2)
    have hk : s'.k = s.k + 1 := by rw [hs']
    have hsL : s'.Ls ++ Lt = s.Ls ++ (L0 :: Lt) := by rw [hs']; simp
    have hsR : s'.Rs ++ Rt = s.Rs ++ (R0 :: Rt) := by rw [hs']; simp
    rw [hsL, hsR, hk] at hcs
    refine ⟨fun i => match i with | 0 => (u, v) | i + 1 => cs i, fun coins => ?_⟩
    obtain ⟨L, R, hLe, hRe, h0, h1⟩ := proveQuadLoop_step E coins Fg s hl ha hb hg hhs
    have key : L = L0 ∧ R = R0 ↔ coins s.k = (u, v) := by
      constructor
      · rintro ⟨h1, h2⟩
        refine Prod.ext (hB.1 ?_) (hB.1 ?_)
        · simp only; rw [hu, ← h1, hLe]; abel
        · simp only; rw [hv, ← h2, hRe]; abel
      · intro hc
        rw [hc] at hLe hRe
        simp only at hLe hRe
        rw [hu] at hLe
        rw [hv] at hRe
        exact ⟨by rw [hLe]; abel, by rw [hRe]; abel⟩
    have go : coins s.k = (u, v) → proveQuadLoop E coins Fg n h s = proveQuadLoop E coins Fg h (h / 2) s' := by
      intro hc
      obtain ⟨rfl, rfl⟩ := key.2 hc
      rw [← hch] at h1
      rw [h1 hx, hs', hc]
    have fin : (∀ i < m + 1, coins (s.k + i) = (match i with | 0 => (u, v) | i + 1 => cs i : F × F)) ↔
        coins s.k = (u, v) ∧ ∀ i < m, coins (s.k + 1 + i) = cs i := by
      constructor
      · intro h
        refine ⟨h 0 (by omega), fun i hi => ?_⟩
        have : coins (s.k + (i + 1)) = cs i := h (i + 1) (by omega)
        rw [← this]; congr 1; omega
      · rintro ⟨h0, h⟩ i hi
        cases i with
        | zero => exact h0
        | succ i =>
          have : coins (s.k + 1 + i) = cs i := h i (by omega)
          simp only
          rw [← this]; congr 1; omega
    rw [fin]
    constructor
    · rintro ⟨e, he, heL, heR⟩
      have hc : coins s.k = (u, v) := by
        generalize E.challenge (E.commit (E.commit s.st (decBytes n ++ [76])
            (E.pointBytes L)) [82] (E.pointBytes R)) [120] 64 = ch' at h0 h1
        obtain ⟨x', hx'e⟩ : ∃ x', x' = E.scalarReduce ch'.1 := ⟨_, rfl⟩
        simp only [← hx'e] at h0 h1
        by_cases hx' : x' = 0
        · rw [h0 hx'] at he; cases he
        · rw [h1 hx'] at he
          rcases proveQuadLoop_spec E coins Fg m h (h / 2)
            ⟨s.Ls ++ [L], s.Rs ++ [R], foldP h x' s.gs, foldS h x'⁻¹ s.as, foldP h x'⁻¹ s.hs, foldS h x' s.bs,
              s.r + ((coins s.k).1 * x' + (coins s.k).2 * x'⁻¹), ch'.2, s.k + 1⟩
            hl.next (by simp; omega) (by simp; omega)
            (by simp; omega) (by simp; omega) with ⟨ht, -⟩ | ⟨e', Ls, Rs, xs, he', -, -, -, -, heL', heR', -⟩
          · rw [he] at ht; cases ht
          · rw [he] at he'
            obtain rfl := Res.ok.inj he'
            refine key.1 ⟨?_, ?_⟩
            · rw [heL] at heL'
              simp only [List.append_assoc, List.append_cancel_left_eq, List.singleton_append,
                List.cons.injEq] at heL'
              exact heL'.1.symm
            · rw [heR] at heR'
              simp only [List.append_assoc, List.append_cancel_left_eq, List.singleton_append,
                List.cons.injEq] at heR'
              exact heR'.1.symm
      exact ⟨hc, (hcs coins).1 ⟨e, by rw [← go hc]; exact he, heL, heR⟩⟩
    · rintro ⟨hc, hi⟩
      rw [go hc]
      exact (hcs coins).2 hi

/-- Exactly one choice of the coins makes `proveLinear` output a given accepted proof. -/
theorem proveLinear_coins (E : Env F G) (hB : Function.Bijective (fun s : F => s • E.base))
    (pf π : LinPf F G) (r : F) (st : E.St) (as bs : List F) (gs : List G) (n : Nat) (eq : F)
    (hn1 : 1 ≤ n) (hn2 : n ≤ 2 ^ 63) (ha : as.length = n)
    (hb : bs.length = n) (hg : gs.length = n) (hL : pf.Ls = []) (hR : pf.Rs = [])
    (hC : pf.C = r • E.base + mexp as gs) (heq : dot as bs = eq)
    (hπt : π.tag = pf.tag) (hπC : π.C = pf.C) (hπL : π.Ls.length = log2roundUp n)
    (hπR : π.Rs.length = log2roundUp n) (hπ0 : 0 ∉ (deriveLin E π n st).xs)
    (hπE : LinEq E π bs gs eq [] (deriveLin E π n st)) :
    ∃ cs : Nat → F × F, ∀ coins : Nat → F × F,
      proveLinear E coins pf r st as bs gs n = .ok (π, (deriveLin E π n st).st) ↔
        ∀ i ≤ log2roundUp n, coins i = cs i := by
  subst heq
  simp only [proveLinear, Env.newGenerator, Env.processPoint, lblC, lblF, lblS, lblx, Env.newChallenge]
  simp only [deriveLin, hπC, LinEq] at hπ0 hπE ⊢
  obtain ⟨f, hf⟩ : ∃ f, f = E.challenge (E.commit st [67] (E.pointBytes pf.C)) [70] 32 := ⟨_, rfl⟩
  simp only [← hf] at hπ0 hπE ⊢
  obtain ⟨c, hc⟩ : ∃ c, c = foldChallenges E n f.2 π.Ls π.Rs := ⟨_, rfl⟩
  simp only [← hc] at hπ0 hπE ⊢
  obtain ⟨X, hX⟩ : ∃ X, X = E.challenge (E.commit c.2 [83] (E.pointBytes π.S)) [120] 64 := ⟨_, rfl⟩
  simp only [← hX] at hπE ⊢
  obtain ⟨cs1, hcs1⟩ := linLoop_coins E hB (E.fromUniform f.1) (log2roundUp n) n (next2power n / 2)
    ⟨pf.Ls, pf.Rs, as, bs, gs, r, f.2, 0⟩ π.Ls π.Rs (level_log hn1 hn2) ha hb hg hπL hπR
    (by rw [← hc]; exact hπ0)
  simp only [hL, hR, List.nil_append, Nat.zero_add] at hcs1
  have hle := (log2roundUp_le hn2).2
  have hxl : c.1.length = log2roundUp n := by
    have := length_foldChallenges E n f.2 π.Ls π.Rs
    rw [← hc] at this; omega
  obtain ⟨a0, ha0⟩ : ∃ a0, a0 = foldedSum (c.1.map (·⁻¹)) as := ⟨_, rfl⟩
  obtain ⟨b0, hb0⟩ : ∃ b0, b0 = foldedSum c.1 bs := ⟨_, rfl⟩
  obtain ⟨g0, hg0⟩ : ∃ g0, g0 = foldedSum c.1 gs := ⟨_, rfl⟩
  rw [← hb0, ← hg0] at hπE
  -- the final state of the loop is determined by the points
  have uniq : ∀ (coins : Nat → F × F) (e : LinProverState F G E.St),
      proveLinLoop E coins (E.fromUniform f.1) n (next2power n / 2) ⟨[], [], as, bs, gs, r, f.2, 0⟩ = .ok e →
      e.Ls = π.Ls → e.Rs = π.Rs → e.k = log2roundUp n ∧ e.st = c.2 ∧ e.as = [a0] ∧ e.bs = [b0] ∧ e.gs = [g0] ∧
      e.r • E.base = r • E.base + mexp as gs + dot as bs • E.fromUniform f.1 + mexp c.1 π.Ls
        + mexp (c.1.map (·⁻¹)) π.Rs - a0 • g0 - (a0 * b0) • E.fromUniform f.1 := by
    intro coins e he heL heR
    rcases proveLinLoop_spec E coins (E.fromUniform f.1) (log2roundUp n) n (next2power n / 2)
      ⟨[], [], as, bs, gs, r, f.2, 0⟩ (level_log hn1 hn2) ha hb hg with
      ⟨ht, -⟩ | ⟨e', Ls, Rs, xs, he', hLs, hRs, hcc, hz, heL', heR', hek, hea, heb, heg, hinv⟩
    · rw [he] at ht; cases ht
    · rw [he] at he'
      obtain rfl := Res.ok.inj he'
      simp only [List.nil_append] at heL' heR'
      rw [heL] at heL'; rw [heR] at heR'
      subst heL' heR'
      simp only at hcc hek hea heb heg hinv
      rw [← hc] at hcc
      have h1 : xs = c.1 := by rw [hcc]
      subst h1
      rw [singleton_of_foldAll hn1 ha (by simp [hxl, hle]), ← ha0] at hea
      rw [singleton_of_foldAll hn1 hb (by rw [hxl]; exact hle), ← hb0] at heb
      rw [singleton_of_foldAll hn1 hg (by rw [hxl]; exact hle), ← hg0] at heg
      refine ⟨by omega, by rw [hcc], hea, heb, heg, ?_⟩
      rw [hea, heb, heg] at hinv
      simp only [mexp_cons, mexp_nil_left, dot_cons, dot_nil_left, add_zero] at hinv
      rw [← hinv]; abel
  obtain ⟨er, her⟩ := hB.2 (r • E.base + mexp as gs + dot as bs • E.fromUniform f.1 + mexp c.1 π.Ls
        + mexp (c.1.map (·⁻¹)) π.Rs - a0 • g0 - (a0 * b0) • E.fromUniform f.1)
  simp only at her
  obtain ⟨x, hx⟩ : ∃ x, x = E.scalarReduce X.1 := ⟨_, rfl⟩
  rw [← hx] at hπE
  have last : ∀ (coins : Nat → F × F) (e : LinProverState F G E.St),
      proveLinLoop E coins (E.fromUniform f.1) n (next2power n / 2) ⟨[], [], as, bs, gs, r, f.2, 0⟩ = .ok e →
      e.Ls = π.Ls → e.Rs = π.Rs → e.r = er := by
    intro coins e he heL heR
    refine hB.1 ?_
    simp only
    rw [her, (uniq coins e he heL heR).2.2.2.2.2]
  have hS : (π.a - a0 * x) • g0 + ((π.a - a0 * x) * b0) • E.fromUniform f.1 + (π.r - er * x) • E.base = π.S := by
    have h1 : (π.r - er * x) • E.base = π.r • E.base - x • (er • E.base) := by module
    rw [h1, her]
    rw [hC] at hπE
    simp only [mexp_nil_left, smul_zero, add_zero] at hπE
    linear_combination (norm := module) -hπE
  refine ⟨fun i => if i < log2roundUp n then cs1 i else (π.a - a0 * x, π.r - er * x), fun coins => ?_⟩
  rw [hL, hR]
  constructor
  · intro h
    obtain ⟨e, he, h⟩ := Res.bind_eq_ok.1 h
    obtain ⟨g0', hg', h⟩ := Res.bind_eq_ok.1 h
    obtain ⟨b0', hb', h⟩ := Res.bind_eq_ok.1 h
    obtain ⟨a0', ha', h⟩ := Res.bind_eq_ok.1 h
    have h := Res.ok.inj h
    have hp := congrArg Prod.fst h
    simp only at hp
    have heL : e.Ls = π.Ls := by rw [← hp]
    have heR : e.Rs = π.Rs := by rw [← hp]
    obtain ⟨hek, hes, hea, heb, heg, -⟩ := uniq coins e he heL heR
    have her' := last coins e he heL heR
    rw [heg, rd_ok (by simp)] at hg'
    rw [heb, rd_ok (by simp)] at hb'
    rw [hea, rd_ok (by simp)] at ha'
    simp only [List.getElem_cons_zero, Res.ok.injEq] at hg' hb' ha'
    subst hg' hb' ha'
    have hpS := congrArg LinPf.S hp
    have hpa := congrArg LinPf.a hp
    have hpr := congrArg LinPf.r hp
    simp only at hpS hpa hpr
    rw [hpS, hes, ← hX, ← hx] at hpa hpr
    rw [her'] at hpr
    rw [hek] at hpa hpr
    intro i hi
    dsimp only
    by_cases hi' : i < log2roundUp n
    · rw [if_pos hi']
      exact (hcs1 coins).1 ⟨e, he, heL, heR⟩ i hi'
    · rw [if_neg hi', show i = log2roundUp n by omega]
      refine Prod.ext ?_ ?_
      · simp only; rw [← hpa]; ring
      · simp only; rw [← hpr]; ring
  · intro hi
    dsimp only at hi
    obtain ⟨e, he, heL, heR⟩ := (hcs1 coins).2 (fun i h => by rw [hi i h.le, if_pos h])
    obtain ⟨hek, hes, hea, heb, heg, -⟩ := uniq coins e he heL heR
    have her' := last coins e he heL heR
    have hcl : coins e.k = (π.a - a0 * x, π.r - er * x) := by
      rw [hek, hi _ le_rfl, if_neg (by omega)]
    rw [he]
    simp only [Res.ok_bind]
    rw [hea, heb, heg, rd_ok (by simp), rd_ok (by simp), rd_ok (by simp)]
    simp only [Res.ok_bind, List.getElem_cons_zero]
    rw [hcl]
    simp only
    rw [hS, hes, ← hX, ← hx, her']
    refine congrArg Res.ok (Prod.ext ?_ rfl)
    simp only
    rw [heL, heR, ← hπt, ← hπC]
    obtain ⟨tg, C, Ls, Rs, S, a, rr⟩ := π
    simp

/-- Exactly one choice of the coins makes `proveQuadratic` output a given accepted proof whose
final challenge is not zero; `uoff`, `voff` are the verifier's offsets. -/
theorem proveQuadratic_coins (E : Env F G) (hB : Function.Bijective (fun s : F => s • E.base))
    (pf π : QuadPf F G) (r : F) (st : E.St) (as bs : List F) (gs hs : List G) (n : Nat) (eq : F)
    (hn1 : 1 ≤ n) (hn2 : n ≤ 2 ^ 63) (ha : as.length = n)
    (hb : bs.length = n) (hg : gs.length = n) (hh : hs.length = n) (hL : pf.Ls = []) (hR : pf.Rs = [])
    (uoff voff : List F)
    (hC : pf.C = r • E.base + mexp as gs + mexp bs hs + (mexp uoff gs + mexp voff hs)) (heq : dot as bs = eq)
    (hπt : π.tag = pf.tag) (hπC : π.C = pf.C) (hπL : π.Ls.length = log2roundUp n)
    (hπR : π.Rs.length = log2roundUp n) (hπ0 : 0 ∉ (deriveQuad E π n st).xs)
    (hπx : (deriveQuad E π n st).x ≠ 0)
    (hπE : QuadEq E π gs hs eq uoff voff (deriveQuad E π n st)) :
    ∃ cs : Nat → F × F, ∀ coins : Nat → F × F,
      proveQuadratic E coins pf r st gs as hs bs n = .ok (π, (deriveQuad E π n st).st) ↔
        ∀ i ≤ log2roundUp n + 1, coins i = cs i := by
  subst heq
  simp only [proveQuadratic, Env.newGenerator, Env.processPoint, lblC, lblF, lblS1, lblS2, lblx, Env.newChallenge]
  simp only [deriveQuad, hπC, QuadEq] at hπ0 hπE hπx ⊢
  obtain ⟨f, hf⟩ : ∃ f, f = E.challenge (E.commit st [67] (E.pointBytes pf.C)) [70] 32 := ⟨_, rfl⟩
  simp only [← hf] at hπ0 hπE hπx ⊢
  obtain ⟨c, hc⟩ : ∃ c, c = foldChallenges E n f.2 π.Ls π.Rs := ⟨_, rfl⟩
  simp only [← hc] at hπ0 hπE hπx ⊢
  obtain ⟨X, hX⟩ : ∃ X, X = E.challenge (E.commit (E.commit c.2 [83, 49] (E.pointBytes π.S1)) [83, 50]
    (E.pointBytes π.S2)) [120] 64 := ⟨_, rfl⟩
  simp only [← hX] at hπE hπx ⊢
  obtain ⟨cs1, hcs1⟩ := quadLoop_coins E hB (E.fromUniform f.1) (log2roundUp n) n (next2power n / 2)
    ⟨pf.Ls, pf.Rs, gs, as, hs, bs, r, f.2, 0⟩ π.Ls π.Rs (level_log hn1 hn2) ha hb hg hh hπL hπR
    (by rw [← hc]; exact hπ0)
  simp only [hL, hR, List.nil_append, Nat.zero_add] at hcs1
  have hle := (log2roundUp_le hn2).2
  have hxl : c.1.length = log2roundUp n := by
    have := length_foldChallenges E n f.2 π.Ls π.Rs
    rw [← hc] at this; omega
  obtain ⟨a0, ha0⟩ : ∃ a0, a0 = foldedSum (c.1.map (·⁻¹)) as := ⟨_, rfl⟩
  obtain ⟨b0, hb0⟩ : ∃ b0, b0 = foldedSum c.1 bs := ⟨_, rfl⟩
  obtain ⟨g0, hg0⟩ : ∃ g0, g0 = foldedSum c.1 gs := ⟨_, rfl⟩
  obtain ⟨h0, hh0⟩ : ∃ h0, h0 = foldedSum (c.1.map (·⁻¹)) hs := ⟨_, rfl⟩
  rw [← hh0, ← hg0] at hπE
  have uniq : ∀ (coins : Nat → F × F) (e : QuadProverState F G E.St),
      proveQuadLoop E coins (E.fromUniform f.1) n (next2power n / 2) ⟨[], [], gs, as, hs, bs, r, f.2, 0⟩ = .ok e →
      e.Ls = π.Ls → e.Rs = π.Rs → e.k = log2roundUp n ∧ e.st = c.2 ∧ e.as = [a0] ∧ e.bs = [b0] ∧ e.gs = [g0] ∧
      e.hs = [h0] ∧
      e.r • E.base = r • E.base + mexp as gs + mexp bs hs + dot as bs • E.fromUniform f.1 + mexp c.1 π.Ls
        + mexp (c.1.map (·⁻¹)) π.Rs - a0 • g0 - b0 • h0 - (a0 * b0) • E.fromUniform f.1 := by
    intro coins e he heL heR
    rcases proveQuadLoop_spec E coins (E.fromUniform f.1) (log2roundUp n) n (next2power n / 2)
      ⟨[], [], gs, as, hs, bs, r, f.2, 0⟩ (level_log hn1 hn2) ha hb hg hh with
      ⟨ht, -⟩ | ⟨e', Ls, Rs, xs, he', hLs, hRs, hcc, hz, heL', heR', hek, hea, heb, heg, heh, hinv⟩
    · rw [he] at ht; cases ht
    · rw [he] at he'
      obtain rfl := Res.ok.inj he'
      simp only [List.nil_append] at heL' heR'
      rw [heL] at heL'; rw [heR] at heR'
      subst heL' heR'
      simp only at hcc hek hea heb heg heh hinv
      rw [← hc] at hcc
      have h1 : xs = c.1 := by rw [hcc]
      subst h1
      rw [singleton_of_foldAll hn1 ha (by simp [hxl, hle]), ← ha0] at hea
      rw [singleton_of_foldAll hn1 hb (by rw [hxl]; exact hle), ← hb0] at heb
      rw [singleton_of_foldAll hn1 hg (by rw [hxl]; exact hle), ← hg0] at heg
      rw [singleton_of_foldAll hn1 hh (by simp [hxl, hle]), ← hh0] at heh
      refine ⟨by omega, by rw [hcc], hea, heb, heg, heh, ?_⟩
      rw [hea, heb, heg, heh] at hinv
      simp only [mexp_cons, mexp_nil_left, dot_cons, dot_nil_left, add_zero] at hinv
      rw [← hinv]; abel
  obtain ⟨er, her⟩ := hB.2 (r • E.base + mexp as gs + mexp bs hs + dot as bs • E.fromUniform f.1 + mexp c.1 π.Ls
        + mexp (c.1.map (·⁻¹)) π.Rs - a0 • g0 - b0 • h0 - (a0 * b0) • E.fromUniform f.1)
  simp only at her
  obtain ⟨x, hx⟩ : ∃ x, x = E.scalarReduce X.1 := ⟨_, rfl⟩
  rw [← hx] at hπE hπx
  have last : ∀ (coins : Nat → F × F) (e : QuadProverState F G E.St),
      proveQuadLoop E coins (E.fromUniform f.1) n (next2power n / 2) ⟨[], [], gs, as, hs, bs, r, f.2, 0⟩ = .ok e →
      e.Ls = π.Ls → e.Rs = π.Rs → e.r = er := by
    intro coins e he heL heR
    refine hB.1 ?_
    simp only
    rw [her, (uniq coins e he heL heR).2.2.2.2.2.2]
  -- the coins of the last step
  obtain ⟨s, hs'⟩ : ∃ s, s = (π.a - a0) * x⁻¹ := ⟨_, rfl⟩
  obtain ⟨t, ht'⟩ : ∃ t, t = (π.b - b0) * x⁻¹ := ⟨_, rfl⟩
  have hsx : a0 + s * x = π.a := by rw [hs', mul_assoc, inv_mul_cancel₀ hπx]; ring
  have htx : b0 + t * x = π.b := by rw [ht', mul_assoc, inv_mul_cancel₀ hπx]; ring
  obtain ⟨u, hu⟩ := hB.2 (π.S1 - (s • g0 + t • h0 + (a0 * t + b0 * s) • E.fromUniform f.1))
  obtain ⟨v, hv⟩ := hB.2 (π.S2 - (s * t) • E.fromUniform f.1)
  simp only at hu hv
  have hr : er + (u + v * x) * x = π.r := by
    refine hB.1 ?_
    simp only
    have h1 : (er + (u + v * x) * x) • E.base = er • E.base + x • (u • E.base) + (x * x) • (v • E.base) := by
      module
    rw [h1, her, hu, hv]
    rw [hC] at hπE
    rw [← hsx, ← htx] at hπE
    linear_combination (norm := module) hπE
  refine ⟨fun i => if i < log2roundUp n then cs1 i else if i = log2roundUp n then (s, t) else (u, v),
    fun coins => ?_⟩
  rw [hL, hR]
  constructor
  · intro h
    obtain ⟨e, he, h⟩ := Res.bind_eq_ok.1 h
    obtain ⟨g0', hg', h⟩ := Res.bind_eq_ok.1 h
    obtain ⟨h0', hh', h⟩ := Res.bind_eq_ok.1 h
    obtain ⟨a0', ha', h⟩ := Res.bind_eq_ok.1 h
    obtain ⟨b0', hb', h⟩ := Res.bind_eq_ok.1 h
    have h := Res.ok.inj h
    have hp := congrArg Prod.fst h
    simp only at hp
    have heL : e.Ls = π.Ls := by rw [← hp]
    have heR : e.Rs = π.Rs := by rw [← hp]
    obtain ⟨hek, hes, hea, heb, heg, heh, -⟩ := uniq coins e he heL heR
    have her' := last coins e he heL heR
    rw [heg, rd_ok (by simp)] at hg'
    rw [heh, rd_ok (by simp)] at hh'
    rw [heb, rd_ok (by simp)] at hb'
    rw [hea, rd_ok (by simp)] at ha'
    simp only [List.getElem_cons_zero, Res.ok.injEq] at hg' hb' ha' hh'
    subst hg' hb' ha' hh'
    have hp1 := congrArg QuadPf.S1 hp
    have hp2 := congrArg QuadPf.S2 hp
    have hpa := congrArg QuadPf.a hp
    have hpb := congrArg QuadPf.b hp
    simp only at hp1 hp2 hpa hpb
    rw [hp1, hp2, hes, ← hX, ← hx] at hpa hpb
    rw [hek] at hpa hpb hp1 hp2
    have e1 : (coins (log2roundUp n)).1 = s := by
      rw [hs', ← hpa, add_sub_cancel_left, mul_assoc, mul_inv_cancel₀ hπx, mul_one]
    have e2 : (coins (log2roundUp n)).2 = t := by
      rw [ht', ← hpb, add_sub_cancel_left, mul_assoc, mul_inv_cancel₀ hπx, mul_one]
    rw [e1, e2] at hp1 hp2
    have e3 : (coins (log2roundUp n + 1)).1 = u := by
      refine hB.1 ?_
      simp only
      rw [hu, ← hp1]; abel
    have e4 : (coins (log2roundUp n + 1)).2 = v := by
      refine hB.1 ?_
      simp only
      rw [hv, ← hp2]; abel
    intro i hi
    dsimp only
    by_cases hi' : i < log2roundUp n
    · rw [if_pos hi']
      exact (hcs1 coins).1 ⟨e, he, heL, heR⟩ i hi'
    · rw [if_neg hi']
      by_cases hi2 : i = log2roundUp n
      · rw [if_pos hi2, hi2]; exact Prod.ext e1 e2
      · rw [if_neg hi2, show i = log2roundUp n + 1 by omega]; exact Prod.ext e3 e4
  · intro hi
    dsimp only at hi
    obtain ⟨e, he, heL, heR⟩ := (hcs1 coins).2 (fun i h => by rw [hi i (by omega), if_pos h])
    obtain ⟨hek, hes, hea, heb, heg, heh, -⟩ := uniq coins e he heL heR
    have her' := last coins e he heL heR
    have hcl : coins e.k = (s, t) := by
      rw [hek, hi _ (by omega), if_neg (by omega), if_pos rfl]
    have hcl' : coins (e.k + 1) = (u, v) := by
      rw [hek, hi _ le_rfl, if_neg (by omega), if_neg (by omega)]
    rw [he]
    simp only [Res.ok_bind]
    rw [hea, heb, heg, heh, rd_ok (by simp), rd_ok (by simp), rd_ok (by simp), rd_ok (by simp)]
    simp only [Res.ok_bind, List.getElem_cons_zero]
    rw [hcl, hcl']
    simp only
    have hS1 : u • E.base + s • g0 + t • h0 + (a0 * t + b0 * s) • E.fromUniform f.1 = π.S1 := by
      rw [hu]; abel
    have hS2 : v • E.base + (s * t) • E.fromUniform f.1 = π.S2 := by rw [hv]; abel
    rw [hS1, hS2, hes, ← hX, ← hx, her', hr, hsx, htx]
    refine congrArg Res.ok (Prod.ext ?_ rfl)
    simp only
    rw [heL, heR, ← hπt, ← hπC]

end

end Verif
