/- The low-level provers, end to end. -/
import Verif.Lemmas.BPProve
import Mathlib.Tactic.Abel

namespace Verif
open Spec

section
variable {F G : Type} [Field F] [AddCommGroup G] [Module F G] [DecidableEq F] [DecidableEq G]

theorem singleton_of_foldAll {M : Type} [AddCommGroup M] [Module F M] {xs : List F} {l : List M} {n : Nat}
    (h1 : 1 ≤ n) (hl : l.length = n) (h2 : n ≤ 2 ^ xs.length) :
    foldAll xs l = [foldedSum xs l] := foldAll_singleton xs l (by omega) (by omega)

theorem proveLinear_spec (E : Env F G) (coins : Nat → F × F) (pf : LinPf F G) (r : F) (st : E.St)
    (as bs : List F) (gs : List G) (n : Nat) (hn1 : 1 ≤ n) (hn2 : n ≤ 2 ^ 63) (ha : as.length = n)
    (hb : bs.length = n) (hg : gs.length = n) (hL : pf.Ls = []) (hR : pf.Rs = []) :
    (proveLinear E coins pf r st as bs gs n = .throw ∧
      ∃ pf' : LinPf F G, pf'.C = pf.C ∧ pf'.Ls.length = log2roundUp n ∧ pf'.Rs.length = log2roundUp n ∧
        0 ∈ (deriveLin E pf' n st).xs) ∨
    ∃ pf' : LinPf F G, proveLinear E coins pf r st as bs gs n = .ok (pf', (deriveLin E pf' n st).st) ∧
      pf'.tag = pf.tag ∧ pf'.C = pf.C ∧
      pf'.Ls.length = log2roundUp n ∧ pf'.Rs.length = log2roundUp n ∧
      0 ∉ (deriveLin E pf' n st).xs ∧
      (∀ (eq : F) (off : List F),
        LinEq E pf' bs gs eq off (deriveLin E pf' n st) ↔
        (deriveLin E pf' n st).x • (pf.C + eq • (deriveLin E pf' n st).Fg) = (deriveLin E pf' n st).x •
          (r • E.base + mexp as gs + mexp off gs + dot as bs • (deriveLin E pf' n st).Fg)) := by
  simp only [proveLinear, Env.newGenerator, Env.processPoint, lblC, lblF, lblS, lblx, Env.newChallenge]
  obtain ⟨f, hf⟩ : ∃ f, f = E.challenge (E.commit st [67] (E.pointBytes pf.C)) [70] 32 := ⟨_, rfl⟩
  simp only [← hf]
  rcases proveLinLoop_spec E coins (E.fromUniform f.1) (log2roundUp n) n (next2power n / 2)
    ⟨pf.Ls, pf.Rs, as, bs, gs, r, f.2, 0⟩ (level_log hn1 hn2) ha hb hg with
    ⟨ht, Ls, Rs, hLs, hRs, hz⟩ | ⟨e, Ls, Rs, xs, he, hLs, hRs, hc, hz, heL, heR, hek, hea, heb, heg, hinv⟩
  · left
    rw [ht]
    refine ⟨rfl, ⟨pf.tag, pf.C, Ls, Rs, 0, 0, 0⟩, rfl, hLs, hRs, ?_⟩
    simp only [deriveLin, ← hf]
    exact hz
  · right
    simp only at hc heL heR hek hea heb heg hinv
    rw [hL, List.nil_append] at heL
    rw [hR, List.nil_append] at heR
    have hle := (log2roundUp_le hn2).2
    have hxl : xs.length = log2roundUp n := by
      have := length_foldChallenges E n f.2 Ls Rs
      rw [hc] at this; simp at this; omega
    rw [singleton_of_foldAll hn1 ha (by simp [hxl, hle])] at hea
    rw [singleton_of_foldAll hn1 hb (by rw [hxl]; exact hle)] at heb
    rw [singleton_of_foldAll hn1 hg (by rw [hxl]; exact hle)] at heg
    rw [he]
    simp only [Res.ok_bind]
    rw [hea, heb, heg, rd_ok (by simp), rd_ok (by simp), rd_ok (by simp)]
    simp only [Res.ok_bind, List.getElem_cons_zero]
    rw [hea, heb, heg] at hinv
    simp only [mexp_cons, mexp_nil_left, dot_cons, dot_nil_left, add_zero] at hinv
    generalize foldedSum (xs.map (·⁻¹)) as = a0 at *
    have hd : ∀ (S : G) (a r' : F),
        deriveLin E { pf with Ls := e.Ls, Rs := e.Rs, S := S, a := a, r := r' } n st =
        ⟨E.fromUniform f.1, xs, E.scalarReduce (E.challenge (E.commit e.st [83] (E.pointBytes S)) [120] 64).1,
          (E.challenge (E.commit e.st [83] (E.pointBytes S)) [120] 64).2⟩ := by
      intro S a r'
      simp only [deriveLin, ← hf, heL, heR, hc]
    refine ⟨_, congrArg Res.ok (Prod.ext rfl ?_), rfl, rfl,
      by simp only [heL]; exact hLs, by simp only [heR]; exact hRs, ?_, ?_⟩
    · rw [hd]
    · rw [hd]; exact hz
    · intro eq off
      rw [hd]
      simp only [LinEq, heL, heR]
      generalize E.scalarReduce _ = x
      have h3 : e.r • E.base = r • E.base + mexp as gs + dot as bs • E.fromUniform f.1 + mexp xs Ls
          + mexp (xs.map (·⁻¹)) Rs - (a0 * foldedSum xs bs) • E.fromUniform f.1 - a0 • foldedSum xs gs := by
        rw [← hinv]; abel
      have h4 : ((coins e.k).2 + e.r * x) • E.base = (coins e.k).2 • E.base + x • (e.r • E.base) := by
        module
      rw [h4, h3]
      generalize foldedSum xs bs = b0
      generalize foldedSum xs gs = g0
      generalize E.fromUniform f.1 = Fg
      generalize mexp xs Ls = ll
      generalize mexp (xs.map (·⁻¹)) Rs = rr
      generalize mexp as gs = ma
      generalize mexp off gs = mo
      generalize dot as bs = dab
      constructor
      · intro h
        linear_combination (norm := module) h
      · intro h
        linear_combination (norm := module) h

theorem proveQuadratic_spec (E : Env F G) (coins : Nat → F × F) (pf : QuadPf F G) (r : F) (st : E.St)
    (as bs : List F) (gs hs : List G) (n : Nat) (hn1 : 1 ≤ n) (hn2 : n ≤ 2 ^ 63) (ha : as.length = n)
    (hb : bs.length = n) (hg : gs.length = n) (hh : hs.length = n) (hL : pf.Ls = []) (hR : pf.Rs = []) :
    (proveQuadratic E coins pf r st gs as hs bs n = .throw ∧
      ∃ pf' : QuadPf F G, pf'.C = pf.C ∧ pf'.Ls.length = log2roundUp n ∧ pf'.Rs.length = log2roundUp n ∧
        0 ∈ (deriveQuad E pf' n st).xs) ∨
    ∃ pf' : QuadPf F G, proveQuadratic E coins pf r st gs as hs bs n = .ok (pf', (deriveQuad E pf' n st).st) ∧
      pf'.tag = pf.tag ∧ pf'.C = pf.C ∧
      pf'.Ls.length = log2roundUp n ∧ pf'.Rs.length = log2roundUp n ∧
      0 ∉ (deriveQuad E pf' n st).xs ∧
      (∀ (eq : F) (uoff voff : List F),
        QuadEq E pf' gs hs eq uoff voff (deriveQuad E pf' n st) ↔
        pf.C + eq • (deriveQuad E pf' n st).Fg =
          r • E.base + mexp as gs + mexp bs hs + mexp uoff gs + mexp voff hs
            + dot as bs • (deriveQuad E pf' n st).Fg) := by
  simp only [proveQuadratic, Env.newGenerator, Env.processPoint, lblC, lblF, lblS1, lblS2, lblx, Env.newChallenge]
  obtain ⟨f, hf⟩ : ∃ f, f = E.challenge (E.commit st [67] (E.pointBytes pf.C)) [70] 32 := ⟨_, rfl⟩
  simp only [← hf]
  rcases proveQuadLoop_spec E coins (E.fromUniform f.1) (log2roundUp n) n (next2power n / 2)
    ⟨pf.Ls, pf.Rs, gs, as, hs, bs, r, f.2, 0⟩ (level_log hn1 hn2) ha hb hg hh with
    ⟨ht, Ls, Rs, hLs, hRs, hz⟩ |
    ⟨e, Ls, Rs, xs, he, hLs, hRs, hc, hz, heL, heR, hek, hea, heb, heg, heh, hinv⟩
  · left
    rw [ht]
    refine ⟨rfl, ⟨pf.tag, pf.C, Ls, Rs, 0, 0, 0, 0, 0⟩, rfl, hLs, hRs, ?_⟩
    simp only [deriveQuad, ← hf]
    exact hz
  · right
    simp only at hc heL heR hek hea heb heg heh hinv
    rw [hL, List.nil_append] at heL
    rw [hR, List.nil_append] at heR
    have hle := (log2roundUp_le hn2).2
    have hxl : xs.length = log2roundUp n := by
      have := length_foldChallenges E n f.2 Ls Rs
      rw [hc] at this; simp at this; omega
    rw [singleton_of_foldAll hn1 ha (by simp [hxl, hle])] at hea
    rw [singleton_of_foldAll hn1 hb (by rw [hxl]; exact hle)] at heb
    rw [singleton_of_foldAll hn1 hg (by rw [hxl]; exact hle)] at heg
    rw [singleton_of_foldAll hn1 hh (by simp [hxl, hle])] at heh
    rw [he]
    simp only [Res.ok_bind]
    rw [hea, heb, heg, heh, rd_ok (by simp), rd_ok (by simp), rd_ok (by simp), rd_ok (by simp)]
    simp only [Res.ok_bind, List.getElem_cons_zero]
    rw [hea, heb, heg, heh] at hinv
    simp only [mexp_cons, mexp_nil_left, dot_cons, dot_nil_left, add_zero] at hinv
    have hd : ∀ (S1 S2 : G) (a b r' : F),
        deriveQuad E { pf with Ls := e.Ls, Rs := e.Rs, S1 := S1, S2 := S2, a := a, b := b, r := r' } n st =
        ⟨E.fromUniform f.1, xs, E.scalarReduce (E.challenge (E.commit (E.commit e.st [83, 49]
            (E.pointBytes S1)) [83, 50] (E.pointBytes S2)) [120] 64).1,
          (E.challenge (E.commit (E.commit e.st [83, 49]
            (E.pointBytes S1)) [83, 50] (E.pointBytes S2)) [120] 64).2⟩ := by
      intro S1 S2 a b r'
      simp only [deriveQuad, ← hf, heL, heR, hc]
    refine ⟨_, congrArg Res.ok (Prod.ext rfl ?_), rfl, rfl,
      by simp only [heL]; exact hLs, by simp only [heR]; exact hRs, ?_, ?_⟩
    · rw [hd]
    · rw [hd]; exact hz
    · intro eq uoff voff
      rw [hd]
      simp only [QuadEq, heL, heR]
      generalize E.scalarReduce _ = x
      generalize foldedSum (xs.map (·⁻¹)) as = a0 at *
      generalize foldedSum (xs.map (·⁻¹)) hs = h0 at *
      generalize foldedSum xs bs = b0 at *
      generalize foldedSum xs gs = g0 at *
      have h3 : e.r • E.base = r • E.base + mexp as gs + mexp bs hs + dot as bs • E.fromUniform f.1
          + mexp xs Ls + mexp (xs.map (·⁻¹)) Rs - (a0 * b0) • E.fromUniform f.1 - a0 • g0 - b0 • h0 := by
        rw [← hinv]; abel
      have h4 : (e.r + ((coins (e.k + 1)).1 + (coins (e.k + 1)).2 * x) * x) • E.base = e.r • E.base
          + (((coins (e.k + 1)).1 + (coins (e.k + 1)).2 * x) * x) • E.base := by module
      rw [h4, h3]
      constructor
      · intro h
        linear_combination (norm := module) h
      · intro h
        linear_combination (norm := module) h

end

end Verif
