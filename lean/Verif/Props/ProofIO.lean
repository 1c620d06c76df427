/-
C54: writing a proof to a stream and reading it back.
-/
import Verif.Lemmas.ProofIO

namespace Verif.Props
open IO Spec.IO

/-- **C54, linear proofs.** A proof that has been written with `<<`, whatever follows it in the stream, is read
back by `>>` (into any object) exactly when it is `Readable`.  Most proofs are not: the tag is not
separated from the bytes of `C`, nor the two counts from what follows. -/
theorem C54_linear (maxLen : ℕ) (dflt : Bytes) (pf pf0 : LinPf Bytes Bytes) (hw : LinWf pf) (rest : Bytes)
    (hm : pf.Ls.length ≤ maxLen ∧ pf.Rs.length ≤ maxLen)
    (h64 : pf.Ls.length < 2 ^ 64 ∧ pf.Rs.length < 2 ^ 64) :
    getLin maxLen dflt pf0 ⟨putLin pf ++ rest, true⟩ = .ok (pf, ⟨rest, true⟩) ↔
      Readable pf.tag pf.C pf.Ls pf.Rs pf.S := by
  have hb : putLin pf ++ rest = pf.tag ++ (pf.C ++ (decBytes pf.Ls.length ++ (pf.Ls.flatten ++
      (decBytes pf.Rs.length ++ (pf.Rs.flatten ++ (pf.S ++ (pf.a ++ (pf.r ++ rest)))))))) := by
    simp [putLin]
  have key := getHead_iff maxLen dflt pf.tag pf.C pf0.tag pf0.C pf.Ls pf.Rs pf0.Ls pf0.Rs pf.S
    (pf.a ++ (pf.r ++ rest)) hw.C hw.Ls hw.Rs hw.S hm h64
  rw [← key, hb]
  generalize (⟨pf.tag ++ (pf.C ++ (decBytes pf.Ls.length ++ (pf.Ls.flatten ++
      (decBytes pf.Rs.length ++ (pf.Rs.flatten ++ (pf.S ++ (pf.a ++ (pf.r ++ rest)))))))), true⟩ : IStream) = s
  unfold getLin getHead
  simp only
  obtain ⟨s2, hs2⟩ : ∃ s2, (getRaw pf0.C (getString pf0.tag s).2).2 = s2 := ⟨_, rfl⟩
  rw [hs2]
  constructor
  · intro h
    obtain ⟨⟨Ls, n, s3⟩, h3, h⟩ := Res.bind_eq_ok.1 h
    simp only at h
    obtain ⟨⟨Rs, n', s4⟩, h4, h⟩ := Res.bind_eq_ok.1 h
    have e := Res.ok.inj h
    simp only [Prod.mk.injEq] at e
    obtain ⟨e1, e2⟩ := e
    obtain ⟨x1, t1, u1⟩ : ∃ x t, getRaw pf0.S s4 = (x, t) := ⟨_, _, rfl⟩
    obtain ⟨x2, t2, u2⟩ : ∃ x t, getRaw pf0.a t1 = (x, t) := ⟨_, _, rfl⟩
    obtain ⟨x3, t3, u3⟩ : ∃ x t, getRaw pf0.r t2 = (x, t) := ⟨_, _, rfl⟩
    simp only [u1, u2, u3] at e1 e2
    obtain ⟨g3, b3, -⟩ := getRaw_good u3 (by rw [e2])
    obtain ⟨g2, b2, -⟩ := getRaw_good u2 g3
    obtain ⟨g1, b1, -⟩ := getRaw_good u1 g2
    rw [h3, Res.ok_bind]
    simp only
    rw [h4, Res.ok_bind, ← e1]
    simp only [Res.ok.injEq, Prod.mk.injEq, true_and]
    cases s4
    simp only at b1 g1
    rw [b1, b2, b3, e2, g1]
  · intro h
    obtain ⟨⟨Ls, n, s3⟩, h3, h⟩ := Res.bind_eq_ok.1 h
    simp only at h
    obtain ⟨⟨Rs, n', s4⟩, h4, h⟩ := Res.bind_eq_ok.1 h
    have e := Res.ok.inj h
    simp only [Prod.mk.injEq] at e
    obtain ⟨e1, e2, e3, e4, e5⟩ := e
    rw [h3, Res.ok_bind]
    simp only
    rw [h4, Res.ok_bind]
    simp only
    rw [e5, getRaw_ok _ _ hw.S]
    simp only
    rw [getRaw_ok _ _ hw.a]
    simp only
    rw [getRaw_ok _ _ hw.r, e1, e2, e3, e4]

/-- **C54, quadratic proofs.** The same. -/
theorem C54_quadratic (maxLen : ℕ) (dflt : Bytes) (pf pf0 : QuadPf Bytes Bytes) (hw : QuadWf pf) (rest : Bytes)
    (hm : pf.Ls.length ≤ maxLen ∧ pf.Rs.length ≤ maxLen)
    (h64 : pf.Ls.length < 2 ^ 64 ∧ pf.Rs.length < 2 ^ 64) :
    getQuad maxLen dflt pf0 ⟨putQuad pf ++ rest, true⟩ = .ok (pf, ⟨rest, true⟩) ↔
      Readable pf.tag pf.C pf.Ls pf.Rs pf.S1 := by
  have hb : putQuad pf ++ rest = pf.tag ++ (pf.C ++ (decBytes pf.Ls.length ++ (pf.Ls.flatten ++
      (decBytes pf.Rs.length ++ (pf.Rs.flatten ++ (pf.S1 ++ (pf.S2 ++ (pf.a ++ (pf.b ++ (pf.r ++ rest)))))))))) := by
    simp [putQuad]
  have key := getHead_iff maxLen dflt pf.tag pf.C pf0.tag pf0.C pf.Ls pf.Rs pf0.Ls pf0.Rs pf.S1
    (pf.S2 ++ (pf.a ++ (pf.b ++ (pf.r ++ rest)))) hw.C hw.Ls hw.Rs hw.S1 hm h64
  rw [← key, hb]
  generalize (⟨pf.tag ++ (pf.C ++ (decBytes pf.Ls.length ++ (pf.Ls.flatten ++ (decBytes pf.Rs.length ++
    (pf.Rs.flatten ++ (pf.S1 ++ (pf.S2 ++ (pf.a ++ (pf.b ++ (pf.r ++ rest)))))))))), true⟩ : IStream) = s
  unfold getQuad getHead
  simp only
  obtain ⟨s2, hs2⟩ : ∃ s2, (getRaw pf0.C (getString pf0.tag s).2).2 = s2 := ⟨_, rfl⟩
  rw [hs2]
  constructor
  · intro h
    obtain ⟨⟨Ls, n, s3⟩, h3, h⟩ := Res.bind_eq_ok.1 h
    simp only at h
    obtain ⟨⟨Rs, n', s4⟩, h4, h⟩ := Res.bind_eq_ok.1 h
    have e := Res.ok.inj h
    simp only [Prod.mk.injEq] at e
    obtain ⟨e1, e2⟩ := e
    obtain ⟨x1, t1, u1⟩ : ∃ x t, getRaw pf0.S1 s4 = (x, t) := ⟨_, _, rfl⟩
    obtain ⟨x2, t2, u2⟩ : ∃ x t, getRaw pf0.S2 t1 = (x, t) := ⟨_, _, rfl⟩
    obtain ⟨x3, t3, u3⟩ : ∃ x t, getRaw pf0.a t2 = (x, t) := ⟨_, _, rfl⟩
    obtain ⟨x4, t4, u4⟩ : ∃ x t, getRaw pf0.b t3 = (x, t) := ⟨_, _, rfl⟩
    obtain ⟨x5, t5, u5⟩ : ∃ x t, getRaw pf0.r t4 = (x, t) := ⟨_, _, rfl⟩
    simp only [u1, u2, u3, u4, u5] at e1 e2
    obtain ⟨g5, b5, -⟩ := getRaw_good u5 (by rw [e2])
    obtain ⟨g4, b4, -⟩ := getRaw_good u4 g5
    obtain ⟨g3, b3, -⟩ := getRaw_good u3 g4
    obtain ⟨g2, b2, -⟩ := getRaw_good u2 g3
    obtain ⟨g1, b1, -⟩ := getRaw_good u1 g2
    rw [h3, Res.ok_bind]
    simp only
    rw [h4, Res.ok_bind, ← e1]
    simp only [Res.ok.injEq, Prod.mk.injEq, true_and]
    cases s4
    simp only at b1 g1
    rw [b1, b2, b3, b4, b5, e2, g1]
  · intro h
    obtain ⟨⟨Ls, n, s3⟩, h3, h⟩ := Res.bind_eq_ok.1 h
    simp only at h
    obtain ⟨⟨Rs, n', s4⟩, h4, h⟩ := Res.bind_eq_ok.1 h
    have e := Res.ok.inj h
    simp only [Prod.mk.injEq] at e
    obtain ⟨e1, e2, e3, e4, e5⟩ := e
    rw [h3, Res.ok_bind]
    simp only
    rw [h4, Res.ok_bind]
    simp only
    rw [e5, getRaw_ok _ _ hw.S1]
    simp only
    rw [getRaw_ok _ _ hw.S2]
    simp only
    rw [getRaw_ok _ _ hw.a]
    simp only
    rw [getRaw_ok _ _ hw.b]
    simp only
    rw [getRaw_ok _ _ hw.r, e1, e2, e3, e4]

/-- **C54.** Consequences: a proof about a single variable (no `L`s) is never read back, nor is one with an empty
tag, one whose tag contains white space, or one whose commitment does not start with white space. -/
theorem C54_not_read_back (maxLen : ℕ) (dflt : Bytes) (pf pf0 : LinPf Bytes Bytes) (hw : LinWf pf) (rest : Bytes)
    (hm : pf.Ls.length ≤ maxLen ∧ pf.Rs.length ≤ maxLen)
    (h64 : pf.Ls.length < 2 ^ 64 ∧ pf.Rs.length < 2 ^ 64)
    (h : pf.Ls = [] ∨ pf.tag = [] ∨ (∃ b ∈ pf.tag, Space b) ∨ ¬ StartsWithSpace pf.C) :
    getLin maxLen dflt pf0 ⟨putLin pf ++ rest, true⟩ ≠ .ok (pf, ⟨rest, true⟩) := by
  rw [Ne, C54_linear maxLen dflt pf pf0 hw rest hm h64]
  rintro ⟨k1, k2, k3, ⟨L, t, k4, -⟩, -⟩
  rcases h with h | h | ⟨b, hb, h⟩ | h
  · rw [h] at k4; cases k4
  · exact k1 h
  · exact k2 b hb h
  · exact h k3

/-- **C54.** If a stream contains no white space at all, then the tag swallows all of it, and the
number of `L`s is used without ever having been given a value. -/
theorem C54_undefined (maxLen : ℕ) (dflt : Bytes) (pf0 : LinPf Bytes Bytes) (buf : Bytes)
    (h : ∀ b ∈ buf, ¬ Space b) : getLin maxLen dflt pf0 ⟨buf, true⟩ = .ub := by
  have hs : ∀ b ∈ buf, isSpace b = false := by
    intro b hb
    have := h b hb
    rw [← isSpace_iff] at this
    simpa using this
  have h1 : (getString pf0.tag ⟨buf, true⟩).2.good = false := by
    unfold getString IStream.skip
    simp only [if_true]
    have e : buf.dropWhile isSpace = buf := dropWhile_self fun x t e => hs x (by rw [e]; simp)
    rw [e]
    cases buf with
    | nil => rfl
    | cons c t =>
      simp only [List.isEmpty_cons, Bool.not_false, if_true]
      have := (takeWhile_all (p := (!isSpace ·)) (a := c :: t) (b := []) fun x hx => by simp [hs x hx]).2
      rw [List.append_nil] at this
      rw [this]
      rfl
  have h2 : ∀ o s, s.good = false → (getRaw o s).2 = s := by
    intro o s hs
    unfold getRaw
    rw [if_neg (by simp [hs])]
  have h3 : ∀ s : IStream, s.good = false → getVec maxLen dflt pf0.Ls none s = .ub := by
    intro s hs
    unfold getVec getNat IStream.skip
    simp [hs]
  unfold getLin
  simp only
  rw [h2 _ _ h1, h3 _ h1]
  rfl

/-- A proof that can be read back: `C` starts with a blank, the `L` and the `R` do not start with a digit. -/
example : getLin 100 [] ⟨[], [], [], [], [], [], []⟩ ⟨putLin ⟨[116], List.replicate 32 32, [List.replicate 32 7],
    [List.replicate 32 8], List.replicate 32 9, List.replicate 32 1, List.replicate 32 2⟩ ++ [5, 5], true⟩ =
    .ok (⟨[116], List.replicate 32 32, [List.replicate 32 7],
    [List.replicate 32 8], List.replicate 32 9, List.replicate 32 1, List.replicate 32 2⟩, ⟨[5, 5], true⟩) :=
  (C54_linear 100 [] _ _ ⟨by simp, by simp, by simp, by simp, by simp, by simp⟩ _ (by decide)
    (by decide)).2 ⟨by decide, by unfold Space; simp, ⟨32, _, rfl, by unfold Space; decide⟩,
      ⟨_, _, rfl, fun ⟨b, t, e, h⟩ => by obtain ⟨rfl, -⟩ := List.cons.inj e; revert h; unfold Digit; decide⟩,
      ⟨_, _, rfl, fun ⟨b, t, e, h⟩ => by obtain ⟨rfl, -⟩ := List.cons.inj e; revert h; unfold Digit; decide⟩⟩

/-- One that cannot: `C` does not start with white space. -/
example : ∃ pf : LinPf Bytes Bytes, LinWf pf ∧ pf.Ls ≠ [] ∧ ¬ StartsWithSpace pf.C ∧
    getLin 100 [] pf ⟨putLin pf, true⟩ = .ub := by
  refine ⟨⟨[116], List.replicate 32 77, [List.replicate 32 7], [List.replicate 32 8], List.replicate 32 99,
    List.replicate 32 1, List.replicate 32 2⟩, ⟨by simp, by simp, by simp, by simp, by simp, by simp⟩,
    by decide, ?_, ?_⟩
  · rintro ⟨b, t, e, h⟩
    obtain ⟨rfl, -⟩ := List.cons.inj e
    revert h; unfold Space; decide
  · exact C54_undefined 100 [] _ _ (by unfold Space; decide +kernel)

end Verif.Props
