/-
Property C105: a program that outputs accepted proofs often enough, computing the challenges itself, can be made to open its
commitments.
-/
import Verif.Lemmas.FiatShamirTree
import Verif.Props.Soundness
import Verif.Props.QuadSound
import Verif.Props.Convince

namespace Verif.Props
open Verif Verif.Spec

section
variable {F G Ω : Type} [Field F] [AddCommGroup G] [Module F G] [DecidableEq F] [DecidableEq G]

theorem linOutput_accepted {E : Env F G} {ans : ℕ → Ω → Bytes} {start : List Entry} {gs : List G} {bs : List F} {eq : F}
    {off : Option (List F)} {Out : (Query → Ω) → LinPf F G → Prop} {C Fg : G} {Ls Rs : List G} {xs : List F} {S : G} {x a r : F}
    (h : LinOutput E ans start gs bs eq off Out C Fg Ls Rs xs S x a r) :
    LinAccepted E.base gs bs eq off C Fg Ls Rs xs S x a r := by
  obtain ⟨H, tag, st', -, h1, h2, h3, h4⟩ := h
  exact ⟨oracleEnv E ans H, tag, start, st', rfl, h1, h2, h3, h4⟩

theorem quadOutput_accepted {E : Env F G} {ans : ℕ → Ω → Bytes} {start : List Entry} {gs hs : List G} {eq : F}
    {uoff voff : Option (List F)} {Out : (Query → Ω) → QuadPf F G → Prop} {C Fg : G} {Ls Rs : List G} {xs : List F} {S1 S2 : G}
    {x a b r : F} (h : QuadOutput E ans start gs hs eq uoff voff Out C Fg Ls Rs xs S1 S2 x a b r) :
    QuadAccepted E.base gs hs eq uoff voff C Fg Ls Rs xs S1 S2 x a b r := by
  obtain ⟨H, tag, st', -, h1, h2, h3, h4⟩ := h
  exact ⟨oracleEnv E ans H, tag, start, st', rfl, h1, h2, h3, h4⟩

theorem linTree_outputs {γ : Type} (P : γ → G → List (G × G) → List F → G → F → Prop) (c : γ) (E : Env F G) (ans : ℕ → Ω → Bytes)
    (start : List Entry) (gs : List G) (bs : List F) (eq : F)
    (off : Option (List F)) (Out : (Query → Ω) → LinPf F G → Prop) (C Fg : G)
    (hP : P c = fun Fg ms xs S x => ∃ a r,
      LinOutput E ans start gs bs eq off Out C Fg (ms.map (·.1)) (ms.map (·.2)) xs S x a r) :
    ∀ (m : ℕ) (ms : List (G × G)) (xs : List F),
      NodeAt 3 2 P c Fg m ms xs →
      ∃ t : LinTree F G, t.OutputBy E ans start gs bs eq off Out C Fg (ms.map (·.1)) (ms.map (·.2)) xs ∧
        t.Accepted E.base gs bs eq off C Fg (ms.map (·.1)) (ms.map (·.2)) xs := by
  intro m
  induction m with
  | zero =>
    rintro ms xs ⟨S, x, hx, h⟩
    rw [hP] at h
    choose a r h using h
    exact ⟨.leaf S (x 0) (a 0) (r 0) (x 1) (a 1) (r 1), ⟨h 0, h 1⟩, hx.ne (by decide), linOutput_accepted (h 0),
      linOutput_accepted (h 1)⟩
  | succ m ih =>
    rintro ms xs ⟨lr, x, hx, h⟩
    have ht := fun i => ih _ _ (h i)
    choose t t1 t2 using ht
    simp only [List.map_append, List.map_cons, List.map_nil] at t1 t2
    exact ⟨.node lr.1 lr.2 (x 0) (x 1) (x 2) (t 0) (t 1) (t 2), ⟨t1 0, t1 1, t1 2⟩,
      hx.ne (by decide), hx.ne (by decide), hx.ne (by decide), t2 0, t2 1, t2 2⟩

theorem quadTree_outputs {γ : Type} (P : γ → G → List (G × G) → List F → G × G → F → Prop) (c : γ) (E : Env F G)
    (ans : ℕ → Ω → Bytes) (start : List Entry) (gs hs : List G) (eq : F)
    (uoff voff : Option (List F)) (Out : (Query → Ω) → QuadPf F G → Prop) (C Fg : G)
    (hP : P c = fun Fg ms xs S x => ∃ a b r,
      QuadOutput E ans start gs hs eq uoff voff Out C Fg (ms.map (·.1)) (ms.map (·.2)) xs S.1 S.2 x a b r) :
    ∀ (m : ℕ) (ms : List (G × G)) (xs : List F),
      NodeAt 4 5 P c Fg m ms xs →
      ∃ t : QuadTree F G, t.OutputBy E ans start gs hs eq uoff voff Out C Fg (ms.map (·.1)) (ms.map (·.2)) xs ∧
        t.Accepted E.base gs hs eq uoff voff C Fg (ms.map (·.1)) (ms.map (·.2)) xs := by
  intro m
  induction m with
  | zero =>
    rintro ms xs ⟨S, x, hx, h⟩
    rw [hP] at h
    choose a b r h using h
    exact ⟨.leaf S.1 S.2 x a b r, h, hx, fun i => quadOutput_accepted (h i)⟩
  | succ m ih =>
    rintro ms xs ⟨lr, x, hx, h⟩
    have ht := fun i => ih _ _ (h i)
    choose t t1 t2 using ht
    simp only [List.map_append, List.map_cons, List.map_nil] at t1 t2
    exact ⟨.node lr.1 lr.2 x t, t1, hx, t2⟩

variable [Finite F] [Finite G] [Finite Ω]

/-- The linear case, for a family of statements from which the program chooses one. -/
theorem lin_family {ι Pf : Type} (E : Env F G) (hpb : Function.Injective E.pointBytes) (ans : ℕ → Ω → Bytes) (μ ν : ℕ)
    (hμ : ∀ c, {o | E.scalarReduce (ans 64 o) = c}.ncard ≤ μ) (hν : ∀ g, {o | E.fromUniform (ans 32 o) = g}.ncard ≤ ν)
    (start : ι → List Entry) (hst : ∀ i i' l l', start i ++ l = start i' ++ l' → i = i' ∧ l = l')
    (gs : ι → List G) (bs : ι → List F) (eq : ι → F) (off : ι → Option (List F))
    (hn1 : ∀ i, 1 ≤ (gs i).length) (hn2 : ∀ i, (gs i).length ≤ 2 ^ 63) (hb : ∀ i, (bs i).length = (gs i).length)
    (ho : ∀ i o, off i = some o → o.length = (gs i).length) (K : ℕ) (hK : ∀ i, log2roundUp (gs i).length ≤ K)
    (A : Program Query Ω Pf) (stmt : Pf → Option ι) (proof : Pf → LinPf F G) (T : ℕ) (hT : ∀ H, (A.asked H).length ≤ T) :
    ∃ D₀ : Finset Query, ∀ D, D₀ ⊆ D → ∀ H₀ : Query → Ω,
      (T + K + 2) * max ν (2 * μ) * Nat.card (D → Ω) <
        {H : D → Ω | ∃ i, stmt (A.run (onSet D H₀ H)) = some i ∧ ∃ st', verifyLinear (oracleEnv E ans (onSet D H₀ H))
          (proof (A.run (onSet D H₀ H))) (bs i) (gs i) (gs i).length (eq i) (start i) (off i) = .ok (true, st')}.ncard * Nat.card Ω →
      ∃ (i : ι) (C F₁ F₂ : G) (t₁ t₂ : LinTree F G), F₁ ≠ F₂ ∧
        t₁.OutputBy E ans (start i) (gs i) (bs i) (eq i) (off i) (fun H pf => stmt (A.run H) = some i ∧ proof (A.run H) = pf)
          C F₁ [] [] [] ∧
        t₂.OutputBy E ans (start i) (gs i) (bs i) (eq i) (off i) (fun H pf => stmt (A.run H) = some i ∧ proof (A.run H) = pf)
          C F₂ [] [] [] ∧
        t₁.Accepted E.base (gs i) (bs i) (eq i) (off i) C F₁ [] [] [] ∧
        t₂.Accepted E.base (gs i) (bs i) (eq i) (off i) C F₂ [] [] [] ∧
        let a := t₁.extract.2.take (gs i).length
        let a' := t₂.extract.2.take (gs i).length
        a.length = (gs i).length ∧ a'.length = (gs i).length ∧
        (t₁.extract.1 - t₂.extract.1) • E.base + mexp (List.zipWith (· - ·) a a') (gs i) + (dot a (bs i) - eq i) • F₁ +
          (eq i - dot a' (bs i)) • F₂ = 0 ∧
        (dot a (bs i) = eq i → C = t₁.extract.1 • E.base + mexp a (gs i) + mexp ((off i).getD []) (gs i)) := by
  obtain ⟨P, hP⟩ : ∃ P : ι × G → G → List (G × G) → List F → G → F → Prop, P = fun C Fg ms xs S x => ∃ a r,
      LinOutput E ans (start C.1) (gs C.1) (bs C.1) (eq C.1) (off C.1)
        (fun H pf => stmt (A.run H) = some C.1 ∧ proof (A.run H) = pf) C.2 Fg (ms.map (·.1)) (ms.map (·.2)) xs S x a r := ⟨_, rfl⟩
  by_cases hno : ∀ C : ι × G, ¬ TopAt 3 2 (log2roundUp (gs C.1).length) P C
  · obtain ⟨D₀, h⟩ := forge_count E ans start (fun S : G => [.absorbed [83] (E.pointBytes S)]) 3 2
      (fun i => log2roundUp (gs i).length) P
      hst hpb (by intro s e he; simp only [List.mem_singleton] at he; subst he; simp) (by simp)
      (by intro s s' h; exact hpb (by simpa using h)) (by simp) μ ν hμ hν (max ν (2 * μ)) (le_max_left _ _)
      (by simp) (by simp only [Nat.reduceSub]; exact le_trans (by omega) (le_max_right _ _)) K hK A T hT (fun i => (gs i).length)
      (fun pf => (stmt pf).map fun i => (i, (proof pf).C)) (fun pf => (proof pf).Ls) (fun pf => (proof pf).Rs)
      (fun pf => (proof pf).S)
      (fun H => ∃ i, stmt (A.run H) = some i ∧ ∃ st', verifyLinear (oracleEnv E ans H) (proof (A.run H)) (bs i) (gs i) (gs i).length
        (eq i) (start i) (off i) = .ok (true, st'))
      (by
        rintro H ⟨i, hi, st', h⟩
        have hlen : ¬((proof (A.run H)).Ls.length ≠ log2roundUp (gs i).length ∨
            (proof (A.run H)).Rs.length ≠ log2roundUp (gs i).length) := by
          intro h'
          cases h.symm.trans (verifyLinear_len (oracleEnv E ans H) (proof (A.run H)) _ _ _ _ _ _ h')
        push Not at hlen
        refine ⟨(i, (proof (A.run H)).C), by rw [hi]; rfl, hlen.1, hlen.2, ?_⟩
        rw [hP]
        dsimp only
        rw [List.map_fst_zip (by omega), List.map_snd_zip (by omega)]
        refine ⟨(proof (A.run H)).a, (proof (A.run H)).r, H, (proof (A.run H)).tag, st', ⟨hi, rfl⟩, ?_, ?_, ?_, h⟩
        · rfl
        · simp [deriveLin, oracleEnv, headEntries]
        · simp [deriveLin, oracleEnv, headEntries, histOf]) hno
    exact ⟨D₀, fun D hD H₀ hc => absurd (lt_of_lt_of_le hc (h D hD H₀)) (lt_irrefl _)⟩
  · push Not at hno
    obtain ⟨⟨i, C⟩, x, hx, h⟩ := hno
    obtain ⟨t₁, a1, a2⟩ := linTree_outputs P (i, C) E ans (start i) (gs i) (bs i) (eq i) (off i) _ C (x 0) (by rw [hP]) _ [] [] (h 0)
    obtain ⟨t₂, b1, b2⟩ := linTree_outputs P (i, C) E ans (start i) (gs i) (bs i) (eq i) (off i) _ C (x 1) (by rw [hP]) _ [] [] (h 1)
    obtain ⟨c1, -, c2, c3⟩ := C13_linear_sound E.base (gs i) (bs i) (eq i) (off i) C (x 0) (x 1) t₁ t₂ (hn1 i) (hn2 i) (hb i) (ho i)
      a2 b2
    obtain ⟨d1, -⟩ := C13_linear_extract E.base (gs i) (bs i) (eq i) (off i) C (x 1) t₂ (hn1 i) (hn2 i) (hb i) (ho i) b2
    exact ⟨∅, fun _ _ _ _ => ⟨i, C, x 0, x 1, t₁, t₂, hx.ne (by decide), a1, b1, a2, b2, c1, d1, c2,
      fun e => (c3 (sub_eq_zero.2 e)).1⟩⟩

/-- The quadratic case, for a family of statements from which the program chooses one. -/
theorem quad_family {ι Pf : Type} (E : Env F G) (hpb : Function.Injective E.pointBytes) (ans : ℕ → Ω → Bytes) (μ ν : ℕ)
    (hμ : ∀ c, {o | E.scalarReduce (ans 64 o) = c}.ncard ≤ μ) (hν : ∀ g, {o | E.fromUniform (ans 32 o) = g}.ncard ≤ ν)
    (start : ι → List Entry) (hst : ∀ i i' l l', start i ++ l = start i' ++ l' → i = i' ∧ l = l')
    (gs hs : ι → List G) (eq : ι → F) (uoff voff : ι → Option (List F)) (k : ι → ℕ) (hk : ∀ i, k i ≤ 63)
    (hg : ∀ i, (gs i).length = 2 ^ k i) (hh : ∀ i, (hs i).length = 2 ^ k i)
    (hu : ∀ i o, uoff i = some o → o.length = 2 ^ k i) (hv : ∀ i o, voff i = some o → o.length = 2 ^ k i)
    (K : ℕ) (hK : ∀ i, k i ≤ K)
    (A : Program Query Ω Pf) (stmt : Pf → Option ι) (proof : Pf → QuadPf F G) (T : ℕ) (hT : ∀ H, (A.asked H).length ≤ T) :
    ∃ D₀ : Finset Query, ∀ D, D₀ ⊆ D → ∀ H₀ : Query → Ω,
      (T + K + 2) * max ν (4 * μ) * Nat.card (D → Ω) <
        {H : D → Ω | ∃ i, stmt (A.run (onSet D H₀ H)) = some i ∧ ∃ st', verifyQuadratic (oracleEnv E ans (onSet D H₀ H))
          (proof (A.run (onSet D H₀ H))) (gs i) (hs i) (gs i).length (eq i) (start i) (uoff i) (voff i) = .ok (true, st')}.ncard *
          Nat.card Ω →
      ∃ (i : ι) (C F₁ F₂ : G) (t₁ t₂ : QuadTree F G), F₁ ≠ F₂ ∧
        t₁.OutputBy E ans (start i) (gs i) (hs i) (eq i) (uoff i) (voff i)
          (fun H pf => stmt (A.run H) = some i ∧ proof (A.run H) = pf) C F₁ [] [] [] ∧
        t₂.OutputBy E ans (start i) (gs i) (hs i) (eq i) (uoff i) (voff i)
          (fun H pf => stmt (A.run H) = some i ∧ proof (A.run H) = pf) C F₂ [] [] [] ∧
        t₁.Accepted E.base (gs i) (hs i) (eq i) (uoff i) (voff i) C F₁ [] [] [] ∧
        t₂.Accepted E.base (gs i) (hs i) (eq i) (uoff i) (voff i) C F₂ [] [] [] ∧
        let a := (List.range (2 ^ k i)).map (t₁.extract (k i)).2.2.1
        let b := (List.range (2 ^ k i)).map (t₁.extract (k i)).2.2.2
        let α := (List.range (2 ^ k i)).map ((t₁.extract (k i)).2.2.1 - (t₂.extract (k i)).2.2.1)
        let β := (List.range (2 ^ k i)).map ((t₁.extract (k i)).2.2.2 - (t₂.extract (k i)).2.2.2)
        (∀ ρ ∈ t₁.relations (k i), ρ.1 • E.base + ρ.2.1 • F₁ + mexp ((List.range (2 ^ k i)).map ρ.2.2.1) (gs i)
          + mexp ((List.range (2 ^ k i)).map ρ.2.2.2) (hs i) = 0) ∧
        ((t₁.extract (k i)).1 - (t₂.extract (k i)).1) • E.base + mexp α (gs i) + mexp β (hs i) +
          ((t₁.extract (k i)).2.1 - eq i) • F₁ + (eq i - (t₂.extract (k i)).2.1) • F₂ = 0 ∧
        ((∀ ρ ∈ t₁.relations (k i), ρ.Trivial (2 ^ k i)) → (t₁.extract (k i)).2.1 - eq i = 0 →
          C = (t₁.extract (k i)).1 • E.base + mexp a (gs i) + mexp ((uoff i).getD []) (gs i) + mexp b (hs i) +
            mexp ((voff i).getD []) (hs i) ∧
          dot a b = eq i) := by
  have hlog : ∀ i, log2roundUp (gs i).length = k i := by intro i; rw [hg]; exact log2roundUp_two_pow (hk i)
  obtain ⟨P, hP⟩ : ∃ P : ι × G → G → List (G × G) → List F → G × G → F → Prop, P = fun C Fg ms xs S x => ∃ a b r,
      QuadOutput E ans (start C.1) (gs C.1) (hs C.1) (eq C.1) (uoff C.1) (voff C.1)
        (fun H pf => stmt (A.run H) = some C.1 ∧ proof (A.run H) = pf) C.2 Fg (ms.map (·.1)) (ms.map (·.2)) xs S.1 S.2 x a b r :=
    ⟨_, rfl⟩
  by_cases hno : ∀ C : ι × G, ¬ TopAt 4 5 (k C.1) P C
  · obtain ⟨D₀, h⟩ := forge_count E ans start
      (fun S : G × G => [.absorbed [83, 49] (E.pointBytes S.1), .absorbed [83, 50] (E.pointBytes S.2)]) 4 5 k P
      hst hpb (by
        intro s e he
        simp only [List.mem_cons, List.not_mem_nil, or_false] at he
        rcases he with rfl | rfl <;> simp) (by simp)
      (by
        intro s s' h
        simp only [List.cons.injEq, Entry.absorbed.injEq, true_and, and_true] at h
        exact Prod.ext (hpb h.1) (hpb h.2)) (by simp) μ ν hμ hν (max ν (4 * μ)) (le_max_left _ _)
      (by simp only [Nat.reduceSub]; exact le_trans (by omega) (le_max_right _ _)) (by simp) K hK A T hT (fun i => (gs i).length)
      (fun pf => (stmt pf).map fun i => (i, (proof pf).C)) (fun pf => (proof pf).Ls) (fun pf => (proof pf).Rs)
      (fun pf => ((proof pf).S1, (proof pf).S2))
      (fun H => ∃ i, stmt (A.run H) = some i ∧ ∃ st', verifyQuadratic (oracleEnv E ans H) (proof (A.run H)) (gs i) (hs i)
        (gs i).length (eq i) (start i) (uoff i) (voff i) = .ok (true, st'))
      (by
        rintro H ⟨i, hi, st', h⟩
        have hlen : ¬((proof (A.run H)).Ls.length ≠ log2roundUp (gs i).length ∨
            (proof (A.run H)).Rs.length ≠ log2roundUp (gs i).length) := by
          intro h'
          cases h.symm.trans (verifyQuadratic_len (oracleEnv E ans H) (proof (A.run H)) _ _ _ _ _ _ _ h')
        push Not at hlen
        rw [hlog] at hlen
        refine ⟨(i, (proof (A.run H)).C), by rw [hi]; rfl, hlen.1, hlen.2, ?_⟩
        rw [hP]
        dsimp only
        rw [List.map_fst_zip (by omega), List.map_snd_zip (by omega)]
        refine ⟨(proof (A.run H)).a, (proof (A.run H)).b, (proof (A.run H)).r, H, (proof (A.run H)).tag, st', ⟨hi, rfl⟩,
          ?_, ?_, ?_, h⟩
        · rfl
        · simp [deriveQuad, oracleEnv, headEntries]
        · simp [deriveQuad, oracleEnv, headEntries, histOf]) hno
    exact ⟨D₀, fun D hD H₀ hc => absurd (lt_of_lt_of_le hc (h D hD H₀)) (lt_irrefl _)⟩
  · push Not at hno
    obtain ⟨⟨i, C⟩, x, hx, h⟩ := hno
    obtain ⟨t₁, a1, a2⟩ := quadTree_outputs P (i, C) E ans (start i) (gs i) (hs i) (eq i) (uoff i) (voff i) _ C (x 0) (by rw [hP])
      _ [] [] (h 0)
    obtain ⟨t₂, b1, b2⟩ := quadTree_outputs P (i, C) E ans (start i) (gs i) (hs i) (eq i) (uoff i) (voff i) _ C (x 1) (by rw [hP])
      _ [] [] (h 1)
    obtain ⟨c2, c3⟩ := C57_quadratic_sound E.base (gs i) (hs i) (eq i) (uoff i) (voff i) C (x 0) (x 1) t₁ t₂ (k i) (hk i) (hg i)
      (hh i) (hu i) (hv i) a2 b2
    obtain ⟨-, d1, -⟩ := C57_quadratic_extract E.base (gs i) (hs i) (eq i) (uoff i) (voff i) C (x 0) t₁ (k i) (hk i) (hg i) (hh i)
      (hu i) (hv i) a2
    exact ⟨∅, fun _ _ _ _ => ⟨i, C, x 0, x 1, t₁, t₂, hx.ne (by decide), a1, b1, a2, b2, d1, c2, c3⟩⟩

/-- **C105, linear proofs.** A program evaluates the random function behind the transcript at most `T` times, whatever that function
is, and outputs a proof.  Each scalar challenge comes from at most `μ` of the `N` values of the function and each generator `F` from
at most `ν`.  If `verifyLinear` accepts its proof for more than a fraction `(T+k+2)·max(ν,2μ)/N` of all functions, where
`k = ⌈log2 n⌉`, then among the accepted proofs that the program outputs for different functions there are two trees of conversations
with one commitment `C` and two different values of `F`.  From these an opening `r, a` of `C` with `<a,b> = eq` is computed, or else a
relation between the generators `base, G_i, F₁, F₂` in which the coefficient of `F₁` is not zero.  (The functions are chosen at random
on a finite set `D` that contains all places where the program or the verifier may evaluate them, and are arbitrary elsewhere.) -/
theorem C105_linear (E : Env F G) (hpb : Function.Injective E.pointBytes) (ans : ℕ → Ω → Bytes) (μ ν : ℕ)
    (hμ : ∀ c, {o | E.scalarReduce (ans 64 o) = c}.ncard ≤ μ) (hν : ∀ g, {o | E.fromUniform (ans 32 o) = g}.ncard ≤ ν)
    (start : List Entry) (gs : List G) (bs : List F) (eq : F) (off : Option (List F))
    (hn1 : 1 ≤ gs.length) (hn2 : gs.length ≤ 2 ^ 63) (hb : bs.length = gs.length)
    (ho : ∀ o, off = some o → o.length = gs.length)
    (A : Program Query Ω (LinPf F G)) (T : ℕ) (hT : ∀ H, (A.asked H).length ≤ T) :
    ∃ D₀ : Finset Query, ∀ D, D₀ ⊆ D → ∀ H₀ : Query → Ω,
      (T + log2roundUp gs.length + 2) * max ν (2 * μ) * Nat.card (D → Ω) <
        {H : D → Ω | ∃ st', verifyLinear (oracleEnv E ans (onSet D H₀ H)) (A.run (onSet D H₀ H)) bs gs gs.length eq start off =
          .ok (true, st')}.ncard * Nat.card Ω →
      ∃ (C F₁ F₂ : G) (t₁ t₂ : LinTree F G), F₁ ≠ F₂ ∧
        t₁.OutputBy E ans start gs bs eq off A.Outputs C F₁ [] [] [] ∧ t₂.OutputBy E ans start gs bs eq off A.Outputs C F₂ [] [] [] ∧
        t₁.Accepted E.base gs bs eq off C F₁ [] [] [] ∧ t₂.Accepted E.base gs bs eq off C F₂ [] [] [] ∧
        let a := t₁.extract.2.take gs.length
        let a' := t₂.extract.2.take gs.length
        a.length = gs.length ∧ a'.length = gs.length ∧
        (t₁.extract.1 - t₂.extract.1) • E.base + mexp (List.zipWith (· - ·) a a') gs + (dot a bs - eq) • F₁ +
          (eq - dot a' bs) • F₂ = 0 ∧
        (dot a bs = eq → C = t₁.extract.1 • E.base + mexp a gs + mexp (off.getD []) gs) := by
  obtain ⟨D₀, h⟩ := lin_family E hpb ans μ ν hμ hν (ι := Unit) (fun _ => start) (by simp) (fun _ => gs) (fun _ => bs) (fun _ => eq)
    (fun _ => off) (fun _ => hn1) (fun _ => hn2) (fun _ => hb) (fun _ => ho) _ (fun _ => le_rfl) A (fun _ => some ()) id T hT
  refine ⟨D₀, fun D hD H₀ hc => ?_⟩
  obtain ⟨_, C, F₁, F₂, t₁, t₂, h1, h2, h3, h4⟩ := h D hD H₀ (by simpa using hc)
  refine ⟨C, F₁, F₂, t₁, t₂, h1, ?_, ?_, h4⟩
  · simp only [true_and, id] at h2; exact h2
  · simp only [true_and, id] at h3; exact h3

/-- **C105, quadratic proofs.** The same for quadratic statements about `2^k` generators of each kind and a fraction
`(T+k+2)·max(ν,4μ)/N`: vectors `a`, `b` and a list of relations between the generators are computed; if all these relations are trivial
and the coefficient of `F₁` in the relation below is zero, then `a` and `b` open `C` and `<a,b> = eq`. -/
theorem C105_quadratic (E : Env F G) (hpb : Function.Injective E.pointBytes) (ans : ℕ → Ω → Bytes) (μ ν : ℕ)
    (hμ : ∀ c, {o | E.scalarReduce (ans 64 o) = c}.ncard ≤ μ) (hν : ∀ g, {o | E.fromUniform (ans 32 o) = g}.ncard ≤ ν)
    (start : List Entry) (gs hs : List G) (eq : F) (uoff voff : Option (List F))
    (k : ℕ) (hk : k ≤ 63) (hg : gs.length = 2 ^ k) (hh : hs.length = 2 ^ k)
    (hu : ∀ o, uoff = some o → o.length = 2 ^ k) (hv : ∀ o, voff = some o → o.length = 2 ^ k)
    (A : Program Query Ω (QuadPf F G)) (T : ℕ) (hT : ∀ H, (A.asked H).length ≤ T) :
    ∃ D₀ : Finset Query, ∀ D, D₀ ⊆ D → ∀ H₀ : Query → Ω,
      (T + k + 2) * max ν (4 * μ) * Nat.card (D → Ω) <
        {H : D → Ω | ∃ st', verifyQuadratic (oracleEnv E ans (onSet D H₀ H)) (A.run (onSet D H₀ H)) gs hs gs.length eq start
          uoff voff = .ok (true, st')}.ncard * Nat.card Ω →
      ∃ (C F₁ F₂ : G) (t₁ t₂ : QuadTree F G), F₁ ≠ F₂ ∧
        t₁.OutputBy E ans start gs hs eq uoff voff A.Outputs C F₁ [] [] [] ∧
        t₂.OutputBy E ans start gs hs eq uoff voff A.Outputs C F₂ [] [] [] ∧
        t₁.Accepted E.base gs hs eq uoff voff C F₁ [] [] [] ∧ t₂.Accepted E.base gs hs eq uoff voff C F₂ [] [] [] ∧
        let a := (List.range (2 ^ k)).map (t₁.extract k).2.2.1
        let b := (List.range (2 ^ k)).map (t₁.extract k).2.2.2
        let α := (List.range (2 ^ k)).map ((t₁.extract k).2.2.1 - (t₂.extract k).2.2.1)
        let β := (List.range (2 ^ k)).map ((t₁.extract k).2.2.2 - (t₂.extract k).2.2.2)
        (∀ ρ ∈ t₁.relations k, ρ.1 • E.base + ρ.2.1 • F₁ + mexp ((List.range (2 ^ k)).map ρ.2.2.1) gs
          + mexp ((List.range (2 ^ k)).map ρ.2.2.2) hs = 0) ∧
        ((t₁.extract k).1 - (t₂.extract k).1) • E.base + mexp α gs + mexp β hs + ((t₁.extract k).2.1 - eq) • F₁ +
          (eq - (t₂.extract k).2.1) • F₂ = 0 ∧
        ((∀ ρ ∈ t₁.relations k, ρ.Trivial (2 ^ k)) → (t₁.extract k).2.1 - eq = 0 →
          C = (t₁.extract k).1 • E.base + mexp a gs + mexp (uoff.getD []) gs + mexp b hs + mexp (voff.getD []) hs ∧
          dot a b = eq) := by
  obtain ⟨D₀, h⟩ := quad_family E hpb ans μ ν hμ hν (ι := Unit) (fun _ => start) (by simp) (fun _ => gs) (fun _ => hs) (fun _ => eq)
    (fun _ => uoff) (fun _ => voff) (fun _ => k) (fun _ => hk) (fun _ => hg) (fun _ => hh) (fun _ => hu) (fun _ => hv) _
    (fun _ => le_rfl) A (fun _ => some ()) id T hT
  refine ⟨D₀, fun D hD H₀ hc => ?_⟩
  obtain ⟨_, C, F₁, F₂, t₁, t₂, h1, h2, h3, h4⟩ := h D hD H₀ (by simpa using hc)
  refine ⟨C, F₁, F₂, t₁, t₂, h1, ?_, ?_, h4⟩
  · simp only [true_and, id] at h2; exact h2
  · simp only [true_and, id] at h3; exact h3

/-! ### The public interface -/

omit [Field F] [AddCommGroup G] [Module F G] [DecidableEq F] [DecidableEq G] [Finite F] [Finite G] [Finite Ω] in
theorem foldl_absorb {α : Type} (f : α → Entry) (l : List α) :
    ∀ st : List Entry, l.foldl (fun st x => st ++ [f x]) st = st ++ l.map f := by
  induction l with
  | nil => intro st; simp
  | cons a l ih => intro st; simp [ih]

/-- The history of the transcript when the public functions have absorbed the tag and a linear constraint (`[98]` is "b"). -/
def linStart (E : Env F G) (tag : Bytes) (c : LinConstraint F) : List Entry :=
  [.started tag, .absorbed lblConstraint []] ++
    c.terms.map (fun t => .absorbed (bytesFromInt (throughInt t.1)) (E.scalarBytes t.2)) ++
    [.absorbed [98] (E.scalarBytes c.equalsTo)]

/-- The same for a quadratic constraint (`[105, 110, 100, 101, 120, 101, 115]` is "indexes"). -/
def quadStart (E : Env F G) (tag : Bytes) (c : QuadConstraint F) : List Entry :=
  [.started tag, .absorbed lblConstraint [], .absorbed [105, 110, 100, 101, 120, 101, 115] (c.indexes.map bytesFromInt).flatten,
    .absorbed [98] (E.scalarBytes c.equalsTo)]

/-- **C105, public linear proofs.** A program that evaluates the random function at most `T` times outputs proofs that the public
verifier accepts for the constraint `c` and the tag `tag`, for more than a fraction `(T+k+2)·max(ν,2μ)/N` of all functions.  Then two
trees of its accepted outputs give scalars `a` for the variables of the constraint: if the coefficient of `F₁` in a relation between
the generators is zero, then the commitment in the proof is to `a`, and `a` satisfies the constraint. -/
theorem C105_public_linear (E : Env F G) (hpb : Function.Injective E.pointBytes) (ans : ℕ → Ω → Bytes) (μ ν : ℕ)
    (hμ : ∀ c, {o | E.scalarReduce (ans 64 o) = c}.ncard ≤ μ) (hν : ∀ g, {o | E.fromUniform (ans 32 o) = g}.ncard ≤ ν)
    (tag : Bytes) (c : LinConstraint F) (h1 : 1 ≤ c.terms.length) (h2 : c.terms.length ≤ 2 ^ 20)
    (A : Program Query Ω (LinPf F G)) (T : ℕ) (hT : ∀ H, (A.asked H).length ≤ T) :
    ∃ D₀ : Finset Query, ∀ D, D₀ ⊆ D → ∀ H₀ : Query → Ω,
      (T + log2roundUp c.terms.length + 2) * max ν (2 * μ) * Nat.card (D → Ω) <
        {H : D → Ω | (A.run (onSet D H₀ H)).tag = tag ∧
          verifyLinearTag (oracleEnv E ans (onSet D H₀ H)) c (A.run (onSet D H₀ H)) = .ok true}.ncard * Nat.card Ω →
      let gs := c.terms.map fun t => E.getG tag t.1
      let bs := c.terms.map (·.2)
      ∃ (C F₁ F₂ : G) (t₁ t₂ : LinTree F G), F₁ ≠ F₂ ∧
        t₁.OutputBy E ans (linStart E tag c) gs bs c.equalsTo none A.Outputs C F₁ [] [] [] ∧
        t₂.OutputBy E ans (linStart E tag c) gs bs c.equalsTo none A.Outputs C F₂ [] [] [] ∧
        let a := t₁.extract.2.take c.terms.length
        let a' := t₂.extract.2.take c.terms.length
        a.length = c.terms.length ∧ a'.length = c.terms.length ∧
        (t₁.extract.1 - t₂.extract.1) • E.base + mexp (List.zipWith (· - ·) a a') gs + (dot a bs - c.equalsTo) • F₁ +
          (c.equalsTo - dot a' bs) • F₂ = 0 ∧
        (dot a bs = c.equalsTo → C = t₁.extract.1 • E.base + mexp a gs) := by
  obtain ⟨D₀, h⟩ := C105_linear E hpb ans μ ν hμ hν (linStart E tag c) (c.terms.map fun t => E.getG tag t.1) (c.terms.map (·.2))
    c.equalsTo none (by simpa using h1) (by rw [List.length_map]; omega) (by simp) (by simp) A T hT
  refine ⟨D₀, fun D hD H₀ hc => ?_⟩
  have hc' := h D hD H₀ (by
    rw [List.length_map]
    refine lt_of_lt_of_le hc (Nat.mul_le_mul_right _ (Set.ncard_le_ncard ?_ (Set.toFinite _)))
    rintro H ⟨ht, hv⟩
    rw [verifyLinearTag, ht, mkFlatLin_verifier (oracleEnv E ans (onSet D H₀ H)) tag c h1 h2] at hv
    simp only [Res.ok_bind] at hv
    obtain ⟨⟨b, st'⟩, hv, hb⟩ := Res.bind_eq_ok.1 hv
    simp only [Res.ok.injEq] at hb
    subst hb
    refine ⟨st', ?_⟩
    have hs : linStart E tag c = (oracleEnv E ans (onSet D H₀ H)).processLin ((oracleEnv E ans (onSet D H₀ H)).newCtx tag)
        lblConstraint c := by
      simp only [Env.processLin, Env.newCtx, Env.processScalar, oracleEnv]
      rw [foldl_absorb]
      rfl
    rw [hs]
    rw [List.length_map] at hv
    exact hv)
  obtain ⟨C, F₁, F₂, t₁, t₂, e1, e2, e3, -, -, e4, e5, e6, e7⟩ := hc'
  simp only [List.length_map] at e4 e5 e6 e7
  exact ⟨C, F₁, F₂, t₁, t₂, e1, e2, e3, e4, e5, e6, fun he => by simpa [mexp] using e7 he⟩

/-- **C105, public quadratic proofs.** The same for a quadratic constraint about `2^k` pairs of variables. -/
theorem C105_public_quadratic (E : Env F G) (hpb : Function.Injective E.pointBytes) (ans : ℕ → Ω → Bytes) (μ ν : ℕ)
    (hμ : ∀ c, {o | E.scalarReduce (ans 64 o) = c}.ncard ≤ μ) (hν : ∀ g, {o | E.fromUniform (ans 32 o) = g}.ncard ≤ ν)
    (tag : Bytes) (c : QuadConstraint F) (k : ℕ) (hk : k ≤ 20) (hc : c.indexes.length = 2 ^ k)
    (A : Program Query Ω (QuadPf F G)) (T : ℕ) (hT : ∀ H, (A.asked H).length ≤ T) :
    ∃ D₀ : Finset Query, ∀ D, D₀ ⊆ D → ∀ H₀ : Query → Ω,
      (T + k + 2) * max ν (4 * μ) * Nat.card (D → Ω) <
        {H : D → Ω | (A.run (onSet D H₀ H)).tag = tag ∧
          verifyQuadraticTag (oracleEnv E ans (onSet D H₀ H)) c (A.run (onSet D H₀ H)) = .ok true}.ncard * Nat.card Ω →
      let gs := c.indexes.map (E.getG tag)
      let hs := c.indexes.map (E.getH tag)
      ∃ (C F₁ F₂ : G) (t₁ t₂ : QuadTree F G), F₁ ≠ F₂ ∧
        t₁.OutputBy E ans (quadStart E tag c) gs hs c.equalsTo none none A.Outputs C F₁ [] [] [] ∧
        t₂.OutputBy E ans (quadStart E tag c) gs hs c.equalsTo none none A.Outputs C F₂ [] [] [] ∧
        let a := (List.range (2 ^ k)).map (t₁.extract k).2.2.1
        let b := (List.range (2 ^ k)).map (t₁.extract k).2.2.2
        let α := (List.range (2 ^ k)).map ((t₁.extract k).2.2.1 - (t₂.extract k).2.2.1)
        let β := (List.range (2 ^ k)).map ((t₁.extract k).2.2.2 - (t₂.extract k).2.2.2)
        (∀ ρ ∈ t₁.relations k, ρ.1 • E.base + ρ.2.1 • F₁ + mexp ((List.range (2 ^ k)).map ρ.2.2.1) gs
          + mexp ((List.range (2 ^ k)).map ρ.2.2.2) hs = 0) ∧
        ((t₁.extract k).1 - (t₂.extract k).1) • E.base + mexp α gs + mexp β hs + ((t₁.extract k).2.1 - c.equalsTo) • F₁ +
          (c.equalsTo - (t₂.extract k).2.1) • F₂ = 0 ∧
        ((∀ ρ ∈ t₁.relations k, ρ.Trivial (2 ^ k)) → (t₁.extract k).2.1 - c.equalsTo = 0 →
          C = (t₁.extract k).1 • E.base + mexp a gs + mexp b hs ∧ dot a b = c.equalsTo) := by
  have h1 : 1 ≤ c.indexes.length := by rw [hc]; exact Nat.one_le_two_pow
  have h2 : c.indexes.length ≤ 2 ^ 20 := by rw [hc]; exact Nat.pow_le_pow_right (by norm_num) hk
  obtain ⟨D₀, h⟩ := C105_quadratic E hpb ans μ ν hμ hν (quadStart E tag c) (c.indexes.map (E.getG tag)) (c.indexes.map (E.getH tag))
    c.equalsTo none none k (by omega) (by simpa using hc) (by simpa using hc) (by simp) (by simp) A T hT
  refine ⟨D₀, fun D hD H₀ hc => ?_⟩
  have hc' := h D hD H₀ (by
    refine lt_of_lt_of_le hc (Nat.mul_le_mul_right _ (Set.ncard_le_ncard ?_ (Set.toFinite _)))
    rintro H ⟨ht, hv⟩
    rw [verifyQuadraticTag, ht, mkFlatQuad_verifier (oracleEnv E ans (onSet D H₀ H)) tag c h1 h2] at hv
    simp only [Res.ok_bind] at hv
    obtain ⟨⟨b, st'⟩, hv, hb⟩ := Res.bind_eq_ok.1 hv
    simp only [Res.ok.injEq] at hb
    subst hb
    exact ⟨st', hv⟩)
  obtain ⟨C, F₁, F₂, t₁, t₂, e1, e2, e3, -, -, e4, e5, e6⟩ := hc'
  exact ⟨C, F₁, F₂, t₁, t₂, e1, e2, e3, e4, e5, fun hr he => by simpa [mexp] using e6 hr he⟩

end

/-! ### The library's bytes -/

section
variable {G : Type} [AddCommGroup G] [Module (ZMod Regev.P) G] [DecidableEq G] [Finite G]

/-- `n` bytes from a value of 64 bytes. -/
def firstBytes (n : ℕ) (o : Fin 64 → Fin 256) : Bytes := (bufBytes o).take n

omit [AddCommGroup G] [Module (ZMod Regev.P) G] [DecidableEq G] [Finite G] in
theorem firstBytes_gen (f : Bytes → G) (κ : ℕ) (hκ : ∀ g, {b : Fin 32 → Fin 256 | f (bufBytes b) = g}.ncard ≤ κ) (g : G) :
    {o | f (firstBytes 32 o) = g}.ncard ≤ κ * 2 ^ 256 := by
  have hfst : ∀ o : Fin 64 → Fin 256, firstBytes 32 o = bufBytes fun i : Fin 32 => o ⟨i, by omega⟩ := by
    intro o
    apply List.ext_getElem
    · simp [firstBytes, bufBytes]
    · intro i h1 h2
      simp [firstBytes, bufBytes]
  have h := Set.ncard_le_ncard_of_injOn (s := {o | f (firstBytes 32 o) = g})
    (t := {b : Fin 32 → Fin 256 | f (bufBytes b) = g} ×ˢ (Set.univ : Set (Fin 32 → Fin 256)))
    (fun o => ((fun i : Fin 32 => o ⟨i, by omega⟩), fun i : Fin 32 => o ⟨i + 32, by omega⟩))
    (fun o ho => ⟨by
      have ho : f (firstBytes 32 o) = g := ho
      rwa [hfst] at ho, Set.mem_univ _⟩)
    (by
      intro a _ b _ hab
      rw [Prod.mk.injEq] at hab
      funext i
      by_cases hi : i.1 < 32
      · exact congrFun hab.1 ⟨i, hi⟩
      · have := congrFun hab.2 ⟨i - 32, by omega⟩
        simpa [Nat.sub_add_cancel (by omega : 32 ≤ i.1)] using this) (Set.toFinite _)
  have e : (256 : ℕ) ^ 32 = 2 ^ 256 := by norm_num
  rw [Set.ncard_prod, Set.ncard_univ, Nat.card_fun, Nat.card_fin, Nat.card_fin, e] at h
  exact h.trans (Nat.mul_le_mul_right _ (hκ g))

/-- **C105, the library's bytes.** The random function gives 64 bytes, of which the generator `F` uses 32, and scalars are reduced
modulo the order as in the library; at most 64 of the `2^256` strings of 32 bytes give the same generator.  Then a program that
evaluates the function at most `T` times and outputs accepted proofs of one statement for more than a fraction `(T+k+2)/2^250` of all
functions outputs the trees of C105. -/
theorem C105_library (E : Env (ZMod Regev.P) G) (hpb : Function.Injective E.pointBytes)
    (hE : ∀ b, E.scalarReduce b = (Sc.leVal b : ZMod Regev.P))
    (hκ : ∀ g, {b : Fin 32 → Fin 256 | E.fromUniform (bufBytes b) = g}.ncard ≤ 64)
    (start : List Entry) (gs hs : List G) (bs : List (ZMod Regev.P)) (eq : ZMod Regev.P)
    (off voff : Option (List (ZMod Regev.P))) (k : ℕ) (hn1 : 1 ≤ gs.length) (hn2 : gs.length ≤ 2 ^ 63)
    (hk : k = log2roundUp gs.length) (hb : bs.length = gs.length)
    (ho : ∀ o, off = some o → o.length = gs.length) (hv : ∀ o, voff = some o → o.length = gs.length) (T : ℕ) :
    (∀ A : Program Query (Fin 64 → Fin 256) (LinPf (ZMod Regev.P) G), (∀ H, (A.asked H).length ≤ T) →
      ∃ D₀ : Finset Query, ∀ D, D₀ ⊆ D → ∀ H₀ : Query → Fin 64 → Fin 256,
        (T + k + 2) * Nat.card (D → Fin 64 → Fin 256) <
          {H : D → Fin 64 → Fin 256 | ∃ st', verifyLinear (oracleEnv E firstBytes (onSet D H₀ H)) (A.run (onSet D H₀ H)) bs gs
            gs.length eq start off = .ok (true, st')}.ncard * 2 ^ 250 →
        ∃ (C F₁ F₂ : G) (t₁ t₂ : LinTree (ZMod Regev.P) G), F₁ ≠ F₂ ∧
          t₁.OutputBy E firstBytes start gs bs eq off A.Outputs C F₁ [] [] [] ∧
          t₂.OutputBy E firstBytes start gs bs eq off A.Outputs C F₂ [] [] [] ∧
          t₁.Accepted E.base gs bs eq off C F₁ [] [] [] ∧ t₂.Accepted E.base gs bs eq off C F₂ [] [] []) ∧
    (gs.length = 2 ^ k → hs.length = 2 ^ k →
      ∀ A : Program Query (Fin 64 → Fin 256) (QuadPf (ZMod Regev.P) G), (∀ H, (A.asked H).length ≤ T) →
      ∃ D₀ : Finset Query, ∀ D, D₀ ⊆ D → ∀ H₀ : Query → Fin 64 → Fin 256,
        (T + k + 2) * Nat.card (D → Fin 64 → Fin 256) <
          {H : D → Fin 64 → Fin 256 | ∃ st', verifyQuadratic (oracleEnv E firstBytes (onSet D H₀ H)) (A.run (onSet D H₀ H)) gs hs
            gs.length eq start off voff = .ok (true, st')}.ncard * 2 ^ 250 →
        ∃ (C F₁ F₂ : G) (t₁ t₂ : QuadTree (ZMod Regev.P) G), F₁ ≠ F₂ ∧
          t₁.OutputBy E firstBytes start gs hs eq off voff A.Outputs C F₁ [] [] [] ∧
          t₂.OutputBy E firstBytes start gs hs eq off voff A.Outputs C F₂ [] [] [] ∧
          t₁.Accepted E.base gs hs eq off voff C F₁ [] [] [] ∧ t₂.Accepted E.base gs hs eq off voff C F₂ [] [] []) := by
  have hμ : ∀ c, {o | E.scalarReduce (firstBytes 64 o) = c}.ncard ≤ 2 ^ 260 := by
    intro c
    have : {o | E.scalarReduce (firstBytes 64 o) = c} = {b : Fin 64 → Fin 256 | scalarOf b = c} := by
      ext o
      have : firstBytes 64 o = bufBytes o := by
        rw [firstBytes, List.take_of_length_le (by simp [bufBytes])]
      simp only [Set.mem_setOf_eq, this, hE, scalarOf]
    rw [this]
    exact C104_bytes c
  have hν := firstBytes_gen E.fromUniform 64 hκ
  have h62 : (64 : ℕ) * 2 ^ 256 = 2 ^ 262 := by rw [show (64 : ℕ) = 2 ^ 6 by norm_num, ← pow_add]
  have h62' : (4 : ℕ) * 2 ^ 260 = 2 ^ 262 := by rw [show (4 : ℕ) = 2 ^ 2 by norm_num, ← pow_add]
  have h61 : (2 : ℕ) * 2 ^ 260 ≤ 2 ^ 262 := by
    rw [← h62']; exact Nat.mul_le_mul_right _ (by norm_num)
  rw [h62] at hν
  have hN : Nat.card (Fin 64 → Fin 256) = 2 ^ 250 * 2 ^ 262 := by
    rw [Nat.card_fun, Nat.card_fin, Nat.card_fin, show (256 : ℕ) = 2 ^ 8 by norm_num, ← pow_mul, ← pow_add]
  have key : ∀ t m M c : ℕ, m ≤ 2 ^ 262 → t * M < c * 2 ^ 250 → t * m * M < c * (2 ^ 250 * 2 ^ 262) := by
    intro t m M c hm h
    calc t * m * M = t * M * m := by ring
      _ ≤ t * M * 2 ^ 262 := Nat.mul_le_mul_left _ hm
      _ < c * 2 ^ 250 * 2 ^ 262 := Nat.mul_lt_mul_of_pos_right h (Nat.two_pow_pos _)
      _ = _ := by rw [Nat.mul_assoc]
  constructor
  · intro A hT
    obtain ⟨D₀, h⟩ := C105_linear E hpb firstBytes (2 ^ 260) (2 ^ 262) hμ hν start gs bs eq off hn1 hn2 hb ho A T hT
    refine ⟨D₀, fun D hD H₀ hc => ?_⟩
    obtain ⟨C, F₁, F₂, t₁, t₂, e1, e2, e3, e4, e5, -⟩ := h D hD H₀ (by
      rw [hN, ← hk]
      exact key _ _ _ _ (max_le le_rfl h61) hc)
    exact ⟨C, F₁, F₂, t₁, t₂, e1, e2, e3, e4, e5⟩
  · intro hg hh A hT
    have hk63 : k ≤ 63 := by
      by_contra hc
      have : 2 ^ 64 ≤ 2 ^ k := Nat.pow_le_pow_right (by norm_num) (by omega)
      omega
    obtain ⟨D₀, h⟩ := C105_quadratic E hpb firstBytes (2 ^ 260) (2 ^ 262) hμ hν start gs hs eq off voff k hk63 hg hh
      (by rw [← hg]; exact ho) (by rw [← hg]; exact hv) A T hT
    refine ⟨D₀, fun D hD H₀ hc => ?_⟩
    obtain ⟨C, F₁, F₂, t₁, t₂, e1, e2, e3, e4, e5, -⟩ := h D hD H₀ (by
      rw [hN]
      exact key _ _ _ _ (max_le le_rfl h62'.le) hc)
    exact ⟨C, F₁, F₂, t₁, t₂, e1, e2, e3, e4, e5⟩

end

/-! ### The hypotheses can be met -/

private instance : Fact (Nat.Prime 23) := ⟨by norm_num⟩

/-- Scalars and points are the integers modulo 23; the random function has the values `0, ..., 21`, and challenge and generator are the
value plus 1. -/
def fsEnv : Env (ZMod 23) (ZMod 23) where
  St := Unit
  init _ := ()
  commit _ _ _ := ()
  challenge _ _ _ := ([], ())
  scalarBytes x := [UInt8.ofNat x.val]
  pointBytes x := [UInt8.ofNat x.val]
  scalarReduce b := (b.headD 0).toNat + 1
  fromUniform b := (b.headD 0).toNat + 1
  hashToCurve _ := 2
  base := 1

/-- The bytes of a value. -/
def fsBytes (_ : ℕ) (o : Fin 22) : Bytes := [UInt8.ofNat o]

/-- The program asks for the generator and the challenge `x` and outputs the proof for `C = 5·base + 1·G`, `G = 2`, with `b = 3`,
`eq = 3`. -/
def fsProgram : Program Query (Fin 22) (LinPf (ZMod 23) (ZMod 23)) :=
  .ask ([.absorbed [67] [7]], [70], 32) fun _ =>
    .ask ([.absorbed [67] [7], .drawn [70] 32, .absorbed [83] [0]], [120], 64) fun o =>
      .done ⟨[], 7, [], [], 0, (o : ℕ) + 1, 5 * ((o : ℕ) + 1)⟩

/-- The program asks twice. -/
theorem fsProgram_asks (H : Query → Fin 22) : (fsProgram.asked H).length = 2 := rfl

/-- Its output is always accepted. -/
theorem fsProgram_accepted (H : Query → Fin 22) :
    ∃ st', verifyLinear (oracleEnv fsEnv fsBytes H) (fsProgram.run H) [3] [2] 1 3 [] none = .ok (true, st') := by
  obtain ⟨f, hf⟩ : ∃ f, f = H ([.absorbed [67] [7]], [70], 32) := ⟨_, rfl⟩
  obtain ⟨o, ho⟩ : ∃ o, o = H ([.absorbed [67] [7], .drawn [70] 32, .absorbed [83] [0]], [120], 64) := ⟨_, rfl⟩
  have hrun : fsProgram.run H = ⟨[], 7, [], [], 0, (o : ℕ) + 1, 5 * ((o : ℕ) + 1)⟩ := by
    rw [ho]; rfl
  have hp7 : fsEnv.pointBytes 7 = [7] := by decide +kernel
  have hp0 : fsEnv.pointBytes 0 = [0] := by decide +kernel
  have hl : log2roundUp 1 = 0 := by decide
  have hd : deriveLin (oracleEnv fsEnv fsBytes H) (fsProgram.run H) 1 [] =
      ⟨fsEnv.fromUniform (fsBytes 32 f), [], fsEnv.scalarReduce (fsBytes 64 o),
        (deriveLin (oracleEnv fsEnv fsBytes H) (fsProgram.run H) 1 []).st⟩ := by
    rw [hrun, ho, hf]
    simp [deriveLin, foldChallenges, oracleEnv, hp7, hp0]
  have hx : ∀ o : Fin 22, fsEnv.scalarReduce (fsBytes 64 o) ≠ 0 := by decide +kernel
  have hx' : ∀ o : Fin 22, fsEnv.scalarReduce (fsBytes 64 o) = (o : ℕ) + 1 := by decide +kernel
  obtain ⟨b, hb, hiff⟩ := (C11_linear_verifier (oracleEnv fsEnv fsBytes H) (fsProgram.run H) [3] [2] 1 3 [] none (by norm_num)
    (by norm_num) rfl rfl (by simp) (by rw [hrun, hl]; rfl) (by rw [hrun, hl]; rfl)).2 (by
      rw [hd]; simpa using hx o)
  have : b = true := hiff.2 (by
    rw [hd]
    simp only [LinEq, hrun, hx', foldedSum, oracleEnv]
    generalize fsEnv.fromUniform (fsBytes 32 f) = g
    have hbase : fsEnv.base = 1 := rfl
    simp [subsetProd, List.range_succ, mexp, hbase]
    ring)
  rw [this] at hb
  exact ⟨_, hb⟩

/-- All hypotheses of `C105_linear` are met by this program. -/
example : ∃ (C F₁ F₂ : ZMod 23) (t₁ t₂ : LinTree (ZMod 23) (ZMod 23)), F₁ ≠ F₂ ∧
    t₁.OutputBy fsEnv fsBytes [] [2] [3] 3 none fsProgram.Outputs C F₁ [] [] [] ∧
    t₂.OutputBy fsEnv fsBytes [] [2] [3] 3 none fsProgram.Outputs C F₂ [] [] [] := by
  have hl : log2roundUp ([2] : List (ZMod 23)).length = 0 := by decide
  have hval : ∀ c : ZMod 23, {o : Fin 22 | (fsEnv.scalarReduce (fsBytes 64 o)) = c}.ncard ≤ 1 := by
    intro c
    rw [Set.ncard_le_one_iff]
    intro a b ha hb
    have key : ∀ a b : Fin 22, fsEnv.scalarReduce (fsBytes 64 a) = fsEnv.scalarReduce (fsBytes 64 b) → a = b := by
      decide +kernel
    exact key a b (Eq.trans ha (Eq.symm hb))
  obtain ⟨D₀, h⟩ := C105_linear fsEnv (by
      have key : ∀ a b : ZMod 23, fsEnv.pointBytes a = fsEnv.pointBytes b → a = b := by decide +kernel
      exact fun a b => key a b) fsBytes 1 1 hval hval [] [2] [3] 3 none (by simp) (by simp) (by simp) (by simp) fsProgram 2
    (fun H => (fsProgram_asks H).le)
  obtain ⟨C, F₁, F₂, t₁, t₂, e1, e2, e3, -⟩ := h D₀ le_rfl (fun _ => 0) (by
    have : {H : D₀ → Fin 22 | ∃ st', verifyLinear (oracleEnv fsEnv fsBytes (onSet D₀ (fun _ => 0) H))
        (fsProgram.run (onSet D₀ (fun _ => 0) H)) [3] [2] ([2] : List (ZMod 23)).length 3 [] none = .ok (true, st')} = Set.univ :=
      Set.eq_univ_of_forall fun H => fsProgram_accepted _
    rw [this, Set.ncard_univ, hl, Nat.card_fin, Nat.mul_comm]
    exact Nat.mul_lt_mul_of_pos_left (by norm_num) (Nat.card_pos))
  exact ⟨C, F₁, F₂, t₁, t₂, e1, e2, e3⟩

/-- A quadratic proof for `C = 5·base + 1·G + 3·H`, `G = 2`, `H = 3`, `eq = 3`, which does not depend on the challenge. -/
def fsQuadProgram : Program Query (Fin 22) (QuadPf (ZMod 23) (ZMod 23)) := .done ⟨[], 16, [], [], 0, 0, 1, 3, 5⟩

theorem fsQuadProgram_accepted (H : Query → Fin 22) :
    ∃ st', verifyQuadratic (oracleEnv fsEnv fsBytes H) (fsQuadProgram.run H) [2] [3] 1 3 [] none none = .ok (true, st') := by
  have hl : log2roundUp 1 = 0 := by decide
  obtain ⟨b, hb, hiff⟩ := (C11_quadratic_verifier (oracleEnv fsEnv fsBytes H) (fsQuadProgram.run H) [2] [3] 1 3 [] none none
    (by norm_num) (by norm_num) rfl rfl (by simp) (by simp) (by rw [hl]; rfl) (by rw [hl]; rfl)).2 (by
      simp [deriveQuad, foldChallenges, fsQuadProgram, Program.run])
  have : b = true := hiff.2 (by
    simp only [QuadEq, deriveQuad, foldChallenges, fsQuadProgram, Program.run, foldedSum, oracleEnv]
    generalize fsEnv.fromUniform _ = g
    have hbase : fsEnv.base = 1 := rfl
    have h16 : (16 : ZMod 23) = 5 + 2 + 3 * 3 := by decide
    simp [subsetProd, List.range_succ, mexp, hbase, h16])
  rw [this] at hb
  exact ⟨_, hb⟩

/-- All hypotheses of `C105_quadratic` are met by this program. -/
example : ∃ (C F₁ F₂ : ZMod 23) (t₁ t₂ : QuadTree (ZMod 23) (ZMod 23)), F₁ ≠ F₂ ∧
    t₁.OutputBy fsEnv fsBytes [] [2] [3] 3 none none fsQuadProgram.Outputs C F₁ [] [] [] ∧
    t₂.OutputBy fsEnv fsBytes [] [2] [3] 3 none none fsQuadProgram.Outputs C F₂ [] [] [] := by
  have hval : ∀ c : ZMod 23, {o : Fin 22 | (fsEnv.scalarReduce (fsBytes 64 o)) = c}.ncard ≤ 1 := by
    intro c
    rw [Set.ncard_le_one_iff]
    intro a b ha hb
    have key : ∀ a b : Fin 22, fsEnv.scalarReduce (fsBytes 64 a) = fsEnv.scalarReduce (fsBytes 64 b) → a = b := by
      decide +kernel
    exact key a b (Eq.trans ha (Eq.symm hb))
  obtain ⟨D₀, h⟩ := C105_quadratic fsEnv (by
      have key : ∀ a b : ZMod 23, fsEnv.pointBytes a = fsEnv.pointBytes b → a = b := by decide +kernel
      exact fun a b => key a b) fsBytes 1 1 hval hval [] [2] [3] 3 none none 0 (by norm_num) rfl rfl (by simp) (by simp)
    fsQuadProgram 0 (fun H => le_rfl)
  obtain ⟨C, F₁, F₂, t₁, t₂, e1, e2, e3, -⟩ := h D₀ le_rfl (fun _ => 0) (by
    have : {H : D₀ → Fin 22 | ∃ st', verifyQuadratic (oracleEnv fsEnv fsBytes (onSet D₀ (fun _ => 0) H))
        (fsQuadProgram.run (onSet D₀ (fun _ => 0) H)) [2] [3] ([2] : List (ZMod 23)).length 3 [] none none = .ok (true, st')} =
          Set.univ :=
      Set.eq_univ_of_forall fun H => fsQuadProgram_accepted _
    rw [this, Set.ncard_univ, Nat.card_fin, Nat.mul_comm]
    exact Nat.mul_lt_mul_of_pos_left (by norm_num) (Nat.card_pos))
  exact ⟨C, F₁, F₂, t₁, t₂, e1, e2, e3⟩

end Verif.Props
