/- Behaviour of the provers' folding loops. -/
import Verif.Lemmas.BPVerify

namespace Verif
open Spec

section
variable {F G : Type} [Field F] [AddCommGroup G] [Module F G] [DecidableEq F] [DecidableEq G]

theorem foldChallenges_cons (E : Env F G) (n : Nat) (st : E.St) (L R : G) (Ls Rs : List G) :
    foldChallenges E n st (L :: Ls) (R :: Rs) =
      (let ch := E.challenge (E.commit (E.commit st (decBytes n ++ [76]) (E.pointBytes L)) [82]
          (E.pointBytes R)) [120] 64
       (E.scalarReduce ch.1 :: (foldChallenges E (2 ^ Ls.length) ch.2 Ls Rs).1,
        (foldChallenges E (2 ^ Ls.length) ch.2 Ls Rs).2)) := rfl

/-- One level of the loop of `proveLinear`. -/
theorem proveLinLoop_step (E : Env F G) (coins : Nat → F × F) (Fg : G) {n h m : Nat}
    (s : LinProverState F G E.St) (hl : Level n h (m + 1)) (ha : s.as.length = n)
    (hb : s.bs.length = n) (hg : s.gs.length = n) :
    ∃ L R, L = (coins s.k).1 • E.base + mexp (s.as.take h) (s.gs.drop h)
          + dot (s.as.take h) (s.bs.drop h) • Fg ∧
      R = (coins s.k).2 • E.base + mexp (s.as.drop h) (s.gs.take h)
          + dot (s.as.drop h) (s.bs.take h) • Fg ∧
      (let ch := E.challenge (E.commit (E.commit s.st (decBytes n ++ [76]) (E.pointBytes L)) [82]
          (E.pointBytes R)) [120] 64
       let x := E.scalarReduce ch.1
       (x = 0 → proveLinLoop E coins Fg n h s = .throw) ∧
       (x ≠ 0 → proveLinLoop E coins Fg n h s = proveLinLoop E coins Fg h (h / 2)
          ⟨s.Ls ++ [L], s.Rs ++ [R], foldS h x⁻¹ s.as, foldS h x s.bs, foldP h x s.gs,
            s.r + ((coins s.k).1 * x + (coins s.k).2 * x⁻¹), ch.2, s.k + 1⟩)) := by
  obtain ⟨hh1, hh2, hh3, hh4⟩ := hl.half
  refine ⟨_, _, rfl, rfl, ?_⟩
  have e1 : mexp (s.as.take (n - h)) (s.gs.drop h) = mexp (s.as.take h) (s.gs.drop h) := by
    rw [mexp_take_left _ _ _ (by simp; omega), mexp_take_left _ _ _ (by simp; omega)]
  have e2 : mexp (s.as.drop h) (s.gs.take (n - h)) = mexp (s.as.drop h) (s.gs.take h) := by
    rw [mexp_take_right _ _ _ (by simp; omega), mexp_take_right _ _ _ (by simp; omega)]
  have e3 : dot (s.bs.drop h) (s.as.take (n - h)) = dot (s.as.take h) (s.bs.drop h) := by
    rw [dot_comm, dot_take_left _ _ _ (by simp; omega), dot_take_left _ _ _ (by simp; omega)]
  have e4 : dot (s.bs.take (n - h)) (s.as.drop h) = dot (s.as.drop h) (s.bs.take h) := by
    rw [dot_comm, dot_take_right _ _ _ (by simp; omega), dot_take_right _ _ _ (by simp; omega)]
  have t1 : (s.gs.drop h).take (n - h) = s.gs.drop h := List.take_of_length_le (by simp; omega)
  have t2 : (s.bs.drop h).take (n - h) = s.bs.drop h := List.take_of_length_le (by simp; omega)
  have t3 : (s.as.drop h).take (n - h) = s.as.drop h := List.take_of_length_le (by simp; omega)
  rw [proveLinLoop, if_pos hh3]
  rw [multiExp_ok (by simp; omega) (by omega), multiExp_ok (by omega) (by simp; omega),
    innerProduct_ok (by simp; omega) (by omega), innerProduct_ok (by omega) (by simp; omega)]
  simp only [Res.ok_bind, t1, t2, t3, e1, e2, e3, e4, Env.processPoint, Env.newChallenge, lblL, lblR,
    lblx]
  generalize E.challenge _ _ _ = ch
  refine ⟨fun hx => ?_, fun hx => ?_⟩
  · simp [inverseOf, hx]
  · rw [inverseOf, if_neg hx]
    simp only [Res.ok_bind]
    rw [rdN_ok (by simp; omega), rdN_ok (by simp; omega)]
    obtain ⟨gl, hgl, hgt, -⟩ := foldGenerators_ok (x := E.scalarReduce ch.1) hg.symm hh1.le hh2
    rw [hgl]
    simp only [Res.ok_bind, t2, t3, hgt, take_addInto]
    rfl

/-- The whole folding loop of the linear prover. -/
theorem proveLinLoop_spec (E : Env F G) (coins : Nat → F × F) (Fg : G) (ell : Nat) :
    ∀ (n h : Nat) (s : LinProverState F G E.St), Level n h ell → s.as.length = n →
      s.bs.length = n → s.gs.length = n →
      (proveLinLoop E coins Fg n h s = .throw ∧ ∃ Ls Rs, Ls.length = ell ∧ Rs.length = ell ∧
        (0 : F) ∈ (foldChallenges E n s.st Ls Rs).1) ∨
      ∃ e Ls Rs xs, proveLinLoop E coins Fg n h s = .ok e ∧ Ls.length = ell ∧ Rs.length = ell ∧
        foldChallenges E n s.st Ls Rs = (xs, e.st) ∧ 0 ∉ xs ∧
        e.Ls = s.Ls ++ Ls ∧ e.Rs = s.Rs ++ Rs ∧ e.k = s.k + ell ∧
        e.as = foldAll (xs.map (·⁻¹)) s.as ∧ e.bs = foldAll xs s.bs ∧ e.gs = foldAll xs s.gs ∧
        e.r • E.base + mexp e.as e.gs + dot e.as e.bs • Fg =
          s.r • E.base + mexp s.as s.gs + dot s.as s.bs • Fg + mexp xs Ls + mexp (xs.map (·⁻¹)) Rs := by
  induction ell with
  | zero =>
    intro n h s hl ha hb hg
    have hn : n = 1 := hl
    subst hn
    right
    refine ⟨s, [], [], [], ?_, rfl, rfl, rfl, by simp, by simp, by simp, rfl, rfl, rfl, rfl, by simp⟩
    rw [proveLinLoop, if_neg (by omega)]
  | succ m ih =>
    intro n h s hl ha hb hg
    obtain ⟨hh1, hh2, hh3, hh4⟩ := hl.half
    obtain ⟨L, R, hL, hR, h0, h1⟩ := proveLinLoop_step E coins Fg s hl ha hb hg
    obtain ⟨ch, hch⟩ : ∃ ch, ch = E.challenge (E.commit (E.commit s.st (decBytes n ++ [76])
      (E.pointBytes L)) [82] (E.pointBytes R)) [120] 64 := ⟨_, rfl⟩
    rw [← hch] at h0 h1
    have hfc : ∀ Ls Rs : List G, Ls.length = m → foldChallenges E n s.st (L :: Ls) (R :: Rs) =
        (E.scalarReduce ch.1 :: (foldChallenges E h ch.2 Ls Rs).1, (foldChallenges E h ch.2 Ls Rs).2) := by
      intro Ls Rs hl
      rw [foldChallenges_cons, hl, ← hh4, ← hch]
    by_cases hx : E.scalarReduce ch.1 = 0
    · left
      refine ⟨h0 hx, L :: List.replicate m 0, R :: List.replicate m 0, by simp, by simp, ?_⟩
      rw [hfc _ _ (by simp), hx]
      simp
    · rw [h1 hx]
      rcases ih h (h / 2) ⟨s.Ls ++ [L], s.Rs ++ [R], foldS h (E.scalarReduce ch.1)⁻¹ s.as,
          foldS h (E.scalarReduce ch.1) s.bs, foldP h (E.scalarReduce ch.1) s.gs,
            s.r + ((coins s.k).1 * (E.scalarReduce ch.1) + (coins s.k).2 * (E.scalarReduce ch.1)⁻¹),
            ch.2, s.k + 1⟩ hl.next (by simp; omega) (by simp; omega) (by simp; omega) with
        ⟨ht, Ls, Rs, hLs, hRs, hz⟩ | ⟨e, Ls, Rs, xs, he, hLs, hRs, hc, hz, heL, heR, hek, hea, heb, heg, hinv⟩
      · left
        refine ⟨ht, L :: Ls, R :: Rs, by simp [hLs], by simp [hRs], ?_⟩
        rw [hfc _ _ hLs]
        exact List.mem_cons_of_mem _ hz
      · right
        simp only at hc heL heR hek hea heb heg hinv
        have hxl : xs.length = m := by
          have := length_foldChallenges E h ch.2 Ls Rs
          rw [hc] at this; simp at this; omega
        refine ⟨e, L :: Ls, R :: Rs, E.scalarReduce ch.1 :: xs, he, by simp [hLs], by simp [hRs], ?_, ?_,
          ?_, ?_, ?_, ?_, ?_, ?_, ?_⟩
        · rw [hfc _ _ hLs, hc]
        · rw [List.mem_cons]; rintro (h | h)
          · exact hx h.symm
          · exact hz h
        · rw [heL]; simp
        · rw [heR]; simp
        · rw [hek]; ring
        · rw [hea, foldS_eq_foldP]; simp [foldAll, hxl, hh4]
        · rw [heb, foldS_eq_foldP]; simp [foldAll, hxl, hh4]
        · rw [heg]; simp [foldAll, hxl, hh4]
        · rw [hinv]
          have hxy : E.scalarReduce ch.1 * (E.scalarReduce ch.1)⁻¹ = 1 := mul_inv_cancel₀ hx
          rw [mexp_fold hxy (by omega) (by omega), dot_fold hxy (by omega) (by omega)]
          simp only [List.map_cons, mexp_cons]
          rw [hL, hR]
          module

/-- One level of the loop of `proveQuadratic`. -/
theorem proveQuadLoop_step (E : Env F G) (coins : Nat → F × F) (Fg : G) {n h m : Nat}
    (s : QuadProverState F G E.St) (hl : Level n h (m + 1)) (ha : s.as.length = n)
    (hb : s.bs.length = n) (hg : s.gs.length = n) (hhs : s.hs.length = n) :
    ∃ L R, L = (coins s.k).1 • E.base + mexp (s.as.take h) (s.gs.drop h)
          + mexp (s.bs.drop h) (s.hs.take h)
          + dot (s.as.take h) (s.bs.drop h) • Fg ∧
      R = (coins s.k).2 • E.base + mexp (s.as.drop h) (s.gs.take h)
          + mexp (s.bs.take h) (s.hs.drop h)
          + dot (s.as.drop h) (s.bs.take h) • Fg ∧
      (let ch := E.challenge (E.commit (E.commit s.st (decBytes n ++ [76]) (E.pointBytes L)) [82]
          (E.pointBytes R)) [120] 64
       let x := E.scalarReduce ch.1
       (x = 0 → proveQuadLoop E coins Fg n h s = .throw) ∧
       (x ≠ 0 → proveQuadLoop E coins Fg n h s = proveQuadLoop E coins Fg h (h / 2)
          ⟨s.Ls ++ [L], s.Rs ++ [R], foldP h x s.gs, foldS h x⁻¹ s.as, foldP h x⁻¹ s.hs, foldS h x s.bs,
            s.r + ((coins s.k).1 * x + (coins s.k).2 * x⁻¹), ch.2, s.k + 1⟩)) := by
  obtain ⟨hh1, hh2, hh3, hh4⟩ := hl.half
  refine ⟨_, _, rfl, rfl, ?_⟩
  have e1 : mexp (s.as.take (n - h)) (s.gs.drop h) = mexp (s.as.take h) (s.gs.drop h) := by
    rw [mexp_take_left _ _ _ (by simp; omega), mexp_take_left _ _ _ (by simp; omega)]
  have e2 : mexp (s.as.drop h) (s.gs.take (n - h)) = mexp (s.as.drop h) (s.gs.take h) := by
    rw [mexp_take_right _ _ _ (by simp; omega), mexp_take_right _ _ _ (by simp; omega)]
  have e1' : mexp (s.bs.take (n - h)) (s.hs.drop h) = mexp (s.bs.take h) (s.hs.drop h) := by
    rw [mexp_take_left _ _ _ (by simp; omega), mexp_take_left _ _ _ (by simp; omega)]
  have e2' : mexp (s.bs.drop h) (s.hs.take (n - h)) = mexp (s.bs.drop h) (s.hs.take h) := by
    rw [mexp_take_right _ _ _ (by simp; omega), mexp_take_right _ _ _ (by simp; omega)]
  have e3 : dot (s.as.take (n - h)) (s.bs.drop h) = dot (s.as.take h) (s.bs.drop h) := by
    rw [dot_take_left _ _ _ (by simp; omega), dot_take_left _ _ _ (by simp; omega)]
  have e4 : dot (s.as.drop h) (s.bs.take (n - h)) = dot (s.as.drop h) (s.bs.take h) := by
    rw [dot_take_right _ _ _ (by simp; omega), dot_take_right _ _ _ (by simp; omega)]
  have t1 : (s.gs.drop h).take (n - h) = s.gs.drop h := List.take_of_length_le (by simp; omega)
  have t1' : (s.hs.drop h).take (n - h) = s.hs.drop h := List.take_of_length_le (by simp; omega)
  have t2 : (s.bs.drop h).take (n - h) = s.bs.drop h := List.take_of_length_le (by simp; omega)
  have t3 : (s.as.drop h).take (n - h) = s.as.drop h := List.take_of_length_le (by simp; omega)
  rw [proveQuadLoop, if_pos hh3]
  rw [multiExp_ok (gs := s.gs.drop h) (by simp; omega) (by omega),
    multiExp_ok (gs := s.gs) (by omega) (by simp; omega),
    multiExp_ok (gs := s.hs.drop h) (by simp; omega) (by omega),
    multiExp_ok (gs := s.hs) (by omega) (by simp; omega),
    innerProduct_ok (a := s.as) (by omega) (by simp; omega),
    innerProduct_ok (a := s.as.drop h) (by simp; omega) (by omega)]
  simp only [Res.ok_bind, t1, t1', t2, t3, e1, e2, e1', e2', e3, e4, Env.processPoint, Env.newChallenge,
    lblL, lblR, lblx]
  generalize E.challenge _ _ _ = ch
  refine ⟨fun hx => ?_, fun hx => ?_⟩
  · simp [inverseOf, hx]
  · rw [inverseOf, if_neg hx]
    simp only [Res.ok_bind]
    rw [rdN_ok (by simp; omega), rdN_ok (by simp; omega)]
    obtain ⟨gl, hgl, hgt, -⟩ := foldGenerators_ok (x := E.scalarReduce ch.1) hg.symm hh1.le hh2
    obtain ⟨hl', hhl, hht, -⟩ := foldGenerators_ok (x := (E.scalarReduce ch.1)⁻¹) hhs.symm hh1.le hh2
    rw [hgl, hhl]
    simp only [Res.ok_bind, t2, t3, hgt, hht, take_addInto]
    rfl

/-- The whole folding loop of the quadratic prover. -/
theorem proveQuadLoop_spec (E : Env F G) (coins : Nat → F × F) (Fg : G) (ell : Nat) :
    ∀ (n h : Nat) (s : QuadProverState F G E.St), Level n h ell → s.as.length = n →
      s.bs.length = n → s.gs.length = n → s.hs.length = n →
      (proveQuadLoop E coins Fg n h s = .throw ∧ ∃ Ls Rs, Ls.length = ell ∧ Rs.length = ell ∧
        (0 : F) ∈ (foldChallenges E n s.st Ls Rs).1) ∨
      ∃ e Ls Rs xs, proveQuadLoop E coins Fg n h s = .ok e ∧ Ls.length = ell ∧ Rs.length = ell ∧
        foldChallenges E n s.st Ls Rs = (xs, e.st) ∧ 0 ∉ xs ∧
        e.Ls = s.Ls ++ Ls ∧ e.Rs = s.Rs ++ Rs ∧ e.k = s.k + ell ∧
        e.as = foldAll (xs.map (·⁻¹)) s.as ∧ e.bs = foldAll xs s.bs ∧ e.gs = foldAll xs s.gs ∧
        e.hs = foldAll (xs.map (·⁻¹)) s.hs ∧
        e.r • E.base + mexp e.as e.gs + mexp e.bs e.hs + dot e.as e.bs • Fg =
          s.r • E.base + mexp s.as s.gs + mexp s.bs s.hs + dot s.as s.bs • Fg + mexp xs Ls
            + mexp (xs.map (·⁻¹)) Rs := by
  induction ell with
  | zero =>
    intro n h s hl ha hb hg hhs
    have hn : n = 1 := hl
    subst hn
    right
    refine ⟨s, [], [], [], ?_, rfl, rfl, rfl, by simp, by simp, by simp, rfl, rfl, rfl, rfl, rfl, by simp⟩
    rw [proveQuadLoop, if_neg (by omega)]
  | succ m ih =>
    intro n h s hl ha hb hg hhs
    obtain ⟨hh1, hh2, hh3, hh4⟩ := hl.half
    obtain ⟨L, R, hL, hR, h0, h1⟩ := proveQuadLoop_step E coins Fg s hl ha hb hg hhs
    obtain ⟨ch, hch⟩ : ∃ ch, ch = E.challenge (E.commit (E.commit s.st (decBytes n ++ [76])
      (E.pointBytes L)) [82] (E.pointBytes R)) [120] 64 := ⟨_, rfl⟩
    rw [← hch] at h0 h1
    have hfc : ∀ Ls Rs : List G, Ls.length = m → foldChallenges E n s.st (L :: Ls) (R :: Rs) =
        (E.scalarReduce ch.1 :: (foldChallenges E h ch.2 Ls Rs).1, (foldChallenges E h ch.2 Ls Rs).2) := by
      intro Ls Rs hl
      rw [foldChallenges_cons, hl, ← hh4, ← hch]
    by_cases hx : E.scalarReduce ch.1 = 0
    · left
      refine ⟨h0 hx, L :: List.replicate m 0, R :: List.replicate m 0, by simp, by simp, ?_⟩
      rw [hfc _ _ (by simp), hx]
      simp
    · rw [h1 hx]
      rcases ih h (h / 2) ⟨s.Ls ++ [L], s.Rs ++ [R], foldP h (E.scalarReduce ch.1) s.gs,
          foldS h (E.scalarReduce ch.1)⁻¹ s.as, foldP h (E.scalarReduce ch.1)⁻¹ s.hs,
          foldS h (E.scalarReduce ch.1) s.bs,
            s.r + ((coins s.k).1 * (E.scalarReduce ch.1) + (coins s.k).2 * (E.scalarReduce ch.1)⁻¹),
            ch.2, s.k + 1⟩ hl.next (by simp; omega) (by simp; omega) (by simp; omega) (by simp; omega) with
        ⟨ht, Ls, Rs, hLs, hRs, hz⟩ |
        ⟨e, Ls, Rs, xs, he, hLs, hRs, hc, hz, heL, heR, hek, hea, heb, heg, heh, hinv⟩
      · left
        refine ⟨ht, L :: Ls, R :: Rs, by simp [hLs], by simp [hRs], ?_⟩
        rw [hfc _ _ hLs]
        exact List.mem_cons_of_mem _ hz
      · right
        simp only at hc heL heR hek hea heb heg heh hinv
        have hxl : xs.length = m := by
          have := length_foldChallenges E h ch.2 Ls Rs
          rw [hc] at this; simp at this; omega
        refine ⟨e, L :: Ls, R :: Rs, E.scalarReduce ch.1 :: xs, he, by simp [hLs], by simp [hRs], ?_, ?_,
          ?_, ?_, ?_, ?_, ?_, ?_, ?_, ?_⟩
        · rw [hfc _ _ hLs, hc]
        · rw [List.mem_cons]; rintro (h | h)
          · exact hx h.symm
          · exact hz h
        · rw [heL]; simp
        · rw [heR]; simp
        · rw [hek]; ring
        · rw [hea, foldS_eq_foldP]; simp [foldAll, hxl, hh4]
        · rw [heb, foldS_eq_foldP]; simp [foldAll, hxl, hh4]
        · rw [heg]; simp [foldAll, hxl, hh4]
        · rw [heh]; simp [foldAll, hxl, hh4]
        · rw [hinv]
          have hxy : E.scalarReduce ch.1 * (E.scalarReduce ch.1)⁻¹ = 1 := mul_inv_cancel₀ hx
          have hyx : (E.scalarReduce ch.1)⁻¹ * E.scalarReduce ch.1 = 1 := inv_mul_cancel₀ hx
          rw [mexp_fold hxy (by omega) (by omega), mexp_fold hyx (by omega) (by omega),
            dot_fold hxy (by omega) (by omega)]
          simp only [List.map_cons, mexp_cons]
          rw [hL, hR]
          module

end

end Verif
