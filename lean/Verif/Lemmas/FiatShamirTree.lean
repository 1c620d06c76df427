/-
For C105: if the accepted outputs of a program contain no tree, then every accepted output has a challenge with a bad value.
-/
import Verif.Lemmas.FiatShamir
import Verif.Lemmas.Soundness
import Verif.Lemmas.QuadSound

namespace Verif
open Verif.Spec

section
variable {F G Ω σ ι γ : Type}

/-! ### Histories determine conversations -/

/-- The entries of folding levels (label, points). -/
def levelEntries (pb : G → Bytes) (pre : List (Bytes × (G × G))) : List Entry :=
  pre.flatMap fun r => [.absorbed r.1 (pb r.2.1), .absorbed [82] (pb r.2.2), .drawn [120] 64]

/-- No bytes are drawn in these entries. -/
def NoDraw (l : List Entry) : Prop := ∀ e ∈ l, ∀ a n, e ≠ .drawn a n

theorem levels_inj (pb : G → Bytes) (hpb : Function.Injective pb) {l l' : List Entry} (hl : NoDraw l) (hl' : NoDraw l') :
    ∀ (p p' : List (Bytes × (G × G))), levelEntries pb p ++ l = levelEntries pb p' ++ l' → p = p' ∧ l = l' := by
  intro p
  induction p with
  | nil =>
    intro p' h
    cases p' with
    | nil => exact ⟨rfl, by simpa [levelEntries] using h⟩
    | cons r t =>
      exfalso
      have : Entry.drawn [120] 64 ∈ l := by
        simp only [levelEntries, List.flatMap_nil, List.nil_append] at h
        rw [h]; simp
      exact hl _ this _ _ rfl
  | cons r t ih =>
    intro p' h
    cases p' with
    | nil =>
      exfalso
      have : Entry.drawn [120] 64 ∈ l' := by
        simp only [levelEntries, List.flatMap_nil, List.nil_append] at h
        rw [← h]; simp
      exact hl' _ this _ _ rfl
    | cons r' t' =>
      simp only [levelEntries, List.flatMap_cons, List.cons_append, List.nil_append, List.cons.injEq,
        Entry.absorbed.injEq, true_and] at h
      obtain ⟨⟨h1, h2⟩, h3, h5⟩ := h
      obtain ⟨h6, h7⟩ := ih t' h5
      refine ⟨?_, h7⟩
      rw [h6]
      have : r = r' := Prod.ext h1 (Prod.ext (hpb h2) (hpb h3))
      rw [this]

/-! ### Trees of outputs -/

section
variable (d e k : ℕ) (P : γ → G → List (G × G) → List F → σ → F → Prop)

/-- Answers to `e` challenges after the last message. -/
def LeafAt (C : γ) (Fg : G) (ms : List (G × G)) (xs : List F) (s : σ) : Prop :=
  ∃ x : Fin e → F, Function.Injective x ∧ ∀ i, P C Fg ms xs s (x i)

/-- A tree with `m` more levels. -/
def NodeAt (C : γ) (Fg : G) : ℕ → List (G × G) → List F → Prop
  | 0, ms, xs => ∃ s, LeafAt e P C Fg ms xs s
  | m + 1, ms, xs => ∃ lr, ∃ x : Fin d → F, Function.Injective x ∧ ∀ i, NodeAt C Fg m (ms ++ [lr]) (xs ++ [x i])

/-- Trees for two values of `F`. -/
def TopAt (C : γ) : Prop := ∃ f : Fin 2 → G, Function.Injective f ∧ ∀ i, NodeAt d e P C (f i) k [] []

end

variable (E : Env F G) (ans : ℕ → Ω → Bytes) (start : ι → List Entry) (lastE : σ → List Entry)
  (d e : ℕ) (k : ι → ℕ) (P : ι × G → G → List (G × G) → List F → σ → F → Prop)

/-- The history before the folding levels. -/
def headEntries (C : ι × G) : List Entry := start C.1 ++ [.absorbed [67] (E.pointBytes C.2), .drawn [70] 32]

/-- The generator `F`. -/
def genOf (H : Query → Ω) (C : ι × G) : G := E.fromUniform (ans 32 (H (start C.1 ++ [.absorbed [67] (E.pointBytes C.2)], [70], 32)))

/-- The challenges of folding levels. -/
def chalsOf (H : Query → Ω) : List Entry → List (Bytes × (G × G)) → List F
  | _, [] => []
  | st, r :: t => E.scalarReduce (ans 64 (H (st ++ [.absorbed r.1 (E.pointBytes r.2.1), .absorbed [82] (E.pointBytes r.2.2)],
      [120], 64))) :: chalsOf H (st ++ [.absorbed r.1 (E.pointBytes r.2.1), .absorbed [82] (E.pointBytes r.2.2),
        .drawn [120] 64]) t

theorem chalsOf_snoc (H : Query → Ω) (r : Bytes × (G × G)) : ∀ (pre : List (Bytes × (G × G))) (st : List Entry),
    chalsOf E ans H st (pre ++ [r]) = chalsOf E ans H st pre ++ [E.scalarReduce (ans 64 (H (st ++
      levelEntries E.pointBytes pre ++ [.absorbed r.1 (E.pointBytes r.2.1), .absorbed [82] (E.pointBytes r.2.2)], [120], 64)))] := by
  intro pre
  induction pre with
  | nil => intro st; simp [chalsOf, levelEntries]
  | cons a t ih => intro st; simp [chalsOf, levelEntries, ih]

/-- The challenges depend on shorter histories only. -/
theorem chalsOf_congr (H H' : Query → Ω) (n : ℕ) (hH : ∀ q : Query, q.1.length < n → H q = H' q) :
    ∀ (pre : List (Bytes × (G × G))) (st : List Entry), st.length + 3 * pre.length ≤ n →
      chalsOf E ans H st pre = chalsOf E ans H' st pre := by
  intro pre
  induction pre with
  | nil => intro st _; rfl
  | cons a t ih =>
    intro st h
    rw [List.length_cons] at h
    simp only [chalsOf]
    rw [hH _ (by simp only [List.length_append, List.length_cons, List.length_nil]; omega),
      ih _ (by simp only [List.length_append, List.length_cons, List.length_nil]; omega)]

/-- Values of the function that bring an output closer to acceptance although there is no tree. -/
def BadFor (H : Query → Ω) (q : Query) (o : Ω) : Prop :=
  (∃ C, q = (start C.1 ++ [.absorbed [67] (E.pointBytes C.2)], [70], 32) ∧ ¬ TopAt d e (k C.1) P C ∧
      NodeAt d e P C (E.fromUniform (ans 32 o)) (k C.1) [] []) ∨
  (∃ C pre l lr, q = (headEntries E start C ++ (levelEntries E.pointBytes pre ++
        [.absorbed l (E.pointBytes lr.1), .absorbed [82] (E.pointBytes lr.2)]), [120], 64) ∧
      (¬ ∃ x : Fin d → F, Function.Injective x ∧ ∀ i, NodeAt d e P C (genOf E ans start H C) (k C.1 - (pre.length + 1))
        (pre.map (·.2) ++ [lr]) (chalsOf E ans H (headEntries E start C) pre ++ [x i])) ∧
      NodeAt d e P C (genOf E ans start H C) (k C.1 - (pre.length + 1)) (pre.map (·.2) ++ [lr])
        (chalsOf E ans H (headEntries E start C) pre ++ [E.scalarReduce (ans 64 o)])) ∨
  (∃ C pre s, q = (headEntries E start C ++ (levelEntries E.pointBytes pre ++ lastE s), [120], 64) ∧
      ¬ LeafAt e P C (genOf E ans start H C) (pre.map (·.2)) (chalsOf E ans H (headEntries E start C) pre) s ∧
      P C (genOf E ans start H C) (pre.map (·.2)) (chalsOf E ans H (headEntries E start C) pre) s (E.scalarReduce (ans 64 o)))

theorem levelEntries_length (pb : G → Bytes) (pre : List (Bytes × (G × G))) : (levelEntries pb pre).length = 3 * pre.length := by
  induction pre with
  | nil => rfl
  | cons a t ih =>
    have : levelEntries pb (a :: t) = [.absorbed a.1 (pb a.2.1), .absorbed [82] (pb a.2.2), .drawn [120] 64] ++
      levelEntries pb t := rfl
    rw [this, List.length_append, ih, List.length_cons]
    simp only [List.length_cons, List.length_nil]
    omega

/-- Whether a value is bad does not depend on it. -/
theorem bad_local (hne : ∀ s, lastE s ≠ []) (H H' : Query → Ω) (q : Query) (o : Ω) (hH : ∀ q', q' ≠ q → H q' = H' q')
    (h : BadFor E ans start lastE d e k P H q o) : BadFor E ans start lastE d e k P H' q o := by
  have hs : ∀ n, n ≤ q.1.length → ∀ q' : Query, q'.1.length < n → H q' = H' q' := by
    intro n hn q' hq'
    apply hH
    rintro rfl
    omega
  have key : ∀ (C : ι × G) (pre : List (Bytes × (G × G))) (l : List Entry), l ≠ [] →
      q.1 = headEntries E start C ++ (levelEntries E.pointBytes pre ++ l) →
      genOf E ans start H C = genOf E ans start H' C ∧
      chalsOf E ans H (headEntries E start C) pre = chalsOf E ans H' (headEntries E start C) pre := by
    intro C pre l hl hq
    have hlen := congrArg List.length hq
    have hpos := List.length_pos_iff.2 hl
    simp only [List.length_append, levelEntries_length] at hlen
    constructor
    · unfold genOf
      rw [hs _ le_rfl]
      rw [hlen]
      simp only [headEntries, List.length_append, List.length_cons, List.length_nil]
      omega
    · exact chalsOf_congr E ans H H' _ (hs _ le_rfl) pre _ (by omega)
  rcases h with ⟨C, h⟩ | ⟨C, pre, l, lr, hq, h⟩ | ⟨C, pre, s, hq, h⟩
  · exact Or.inl ⟨C, h⟩
  · obtain ⟨h1, h2⟩ := key C pre _ (by simp) (congrArg Prod.fst hq)
    rw [h1, h2] at h
    exact Or.inr (Or.inl ⟨C, pre, l, lr, hq, h⟩)
  · obtain ⟨h1, h2⟩ := key C pre _ (hne s) (congrArg Prod.fst hq)
    rw [h1, h2] at h
    exact Or.inr (Or.inr ⟨C, pre, s, hq, h⟩)

theorem head_inj (hst : ∀ i i' l l', start i ++ l = start i' ++ l' → i = i' ∧ l = l') (hpb : Function.Injective E.pointBytes) {C C' : ι × G} {l l' : List Entry}
    (h : headEntries E start C ++ l = headEntries E start C' ++ l') : C = C' ∧ l = l' := by
  simp only [headEntries, List.append_assoc] at h
  obtain ⟨h1, h2⟩ := hst _ _ _ _ h
  simp only [List.cons_append, List.nil_append, List.cons.injEq, Entry.absorbed.injEq, true_and] at h2
  exact ⟨Prod.ext h1 (hpb h2.1), h2.2⟩

theorem bad_few [Finite F] [Finite G] [Finite Ω]
    (hst : ∀ i i' l l', start i ++ l = start i' ++ l' → i = i' ∧ l = l') (hpb : Function.Injective E.pointBytes) (hlast : ∀ s, NoDraw (lastE s))
    (hinj : Function.Injective lastE)
    (hdis : ∀ s l a b, lastE s ≠ [.absorbed l a, .absorbed [82] b]) (μ ν : ℕ)
    (hμ : ∀ c, {o | E.scalarReduce (ans 64 o) = c}.ncard ≤ μ) (hν : ∀ g, {o | E.fromUniform (ans 32 o) = g}.ncard ≤ ν)
    (b : ℕ) (hb1 : ν ≤ b) (hb2 : (d - 1) * μ ≤ b) (hb3 : (e - 1) * μ ≤ b) (H : Query → Ω) (q : Query) :
    {o | BadFor E ans start lastE d e k P H q o}.ncard ≤ b := by
  have nd : ∀ l x y, NoDraw [Entry.absorbed l x, .absorbed [82] y] := by
    intro l x y e he a n
    simp only [List.mem_cons, List.not_mem_nil, or_false] at he
    rcases he with rfl | rfl <;> simp
  by_cases h1 : ∃ C, q = (start C.1 ++ [.absorbed [67] (E.pointBytes C.2)], [70], 32) ∧ ¬ TopAt d e (k C.1) P C
  · obtain ⟨C, rfl, hC⟩ := h1
    have := few_coins (fun o => E.fromUniform (ans 32 o)) ν hν 2 (fun g => NodeAt d e P C g (k C.1) [] []) hC
    refine le_trans (Set.ncard_le_ncard ?_ (Set.toFinite _)) (this.trans (by simpa using hb1))
    rintro o (⟨C', hq, -, ho⟩ | ⟨C', pre, l, lr, hq, -⟩ | ⟨C', pre, s, hq, -⟩)
    · rw [Prod.mk.injEq] at hq
      obtain ⟨h1, h2⟩ := hst _ _ _ _ hq.1
      have : C = C' := Prod.ext h1 (hpb (by simpa using h2))
      subst this
      exact ho
    · simp at hq
    · simp at hq
  by_cases h2 : ∃ C pre l lr, q = (headEntries E start C ++ (levelEntries E.pointBytes pre ++
        [.absorbed l (E.pointBytes lr.1), .absorbed [82] (E.pointBytes lr.2)]), [120], 64) ∧
      (¬ ∃ x : Fin d → F, Function.Injective x ∧ ∀ i, NodeAt d e P C (genOf E ans start H C) (k C.1 - (pre.length + 1))
        (pre.map (·.2) ++ [lr]) (chalsOf E ans H (headEntries E start C) pre ++ [x i]))
  · obtain ⟨C, pre, l, lr, rfl, hC⟩ := h2
    have := few_coins (fun o => E.scalarReduce (ans 64 o)) μ hμ d (fun c => NodeAt d e P C (genOf E ans start H C)
      (k C.1 - (pre.length + 1)) (pre.map (·.2) ++ [lr]) (chalsOf E ans H (headEntries E start C) pre ++ [c])) hC
    refine le_trans (Set.ncard_le_ncard ?_ (Set.toFinite _)) (this.trans hb2)
    rintro o (⟨C', hq, -⟩ | ⟨C', pre', l', lr', hq, -, ho⟩ | ⟨C', pre', s, hq, -⟩)
    · simp at hq
    · rw [Prod.mk.injEq] at hq
      obtain ⟨rfl, h3⟩ := head_inj E start hst hpb hq.1
      obtain ⟨rfl, h4⟩ := levels_inj E.pointBytes hpb (nd _ _ _) (nd _ _ _) _ _ h3
      simp only [List.cons.injEq, Entry.absorbed.injEq, and_true, true_and] at h4
      have : lr = lr' := Prod.ext (hpb h4.1.2) (hpb h4.2)
      subst this
      exact ho
    · rw [Prod.mk.injEq] at hq
      obtain ⟨rfl, h3⟩ := head_inj E start hst hpb hq.1
      exact absurd (levels_inj E.pointBytes hpb (nd _ _ _) (hlast s) _ _ h3).2.symm (hdis s _ _ _)
  by_cases h3 : ∃ C pre s, q = (headEntries E start C ++ (levelEntries E.pointBytes pre ++ lastE s), [120], 64) ∧
      ¬ LeafAt e P C (genOf E ans start H C) (pre.map (·.2)) (chalsOf E ans H (headEntries E start C) pre) s
  · obtain ⟨C, pre, s, rfl, hC⟩ := h3
    obtain ⟨S, hS⟩ : ∃ S : F → Prop, S = P C (genOf E ans start H C) (pre.map (·.2)) (chalsOf E ans H (headEntries E start C) pre) s :=
      ⟨_, rfl⟩
    have := few_coins (fun o => E.scalarReduce (ans 64 o)) μ hμ e S (by rw [hS]; exact hC)
    rw [hS] at this
    refine le_trans (Set.ncard_le_ncard ?_ (Set.toFinite _)) (this.trans hb3)
    rintro o (⟨C', hq, -⟩ | ⟨C', pre', l', lr', hq, -⟩ | ⟨C', pre', s', hq, -, ho⟩)
    · simp at hq
    · rw [Prod.mk.injEq] at hq
      obtain ⟨rfl, h3⟩ := head_inj E start hst hpb hq.1
      exact absurd (levels_inj E.pointBytes hpb (hlast s) (nd _ _ _) _ _ h3).2 (hdis s _ _ _)
    · rw [Prod.mk.injEq] at hq
      obtain ⟨rfl, h3⟩ := head_inj E start hst hpb hq.1
      obtain ⟨rfl, h4⟩ := levels_inj E.pointBytes hpb (hlast s) (hlast s') _ _ h3
      have := hinj h4
      subst this
      exact ho
  · have : {o | BadFor E ans start lastE d e k P H q o} = ∅ := by
      rw [Set.eq_empty_iff_forall_notMem]
      rintro o (⟨C, hq, hn, -⟩ | ⟨C, pre, l, lr, hq, hn, -⟩ | ⟨C, pre, s, hq, hn, -⟩)
      · exact h1 ⟨C, hq, hn⟩
      · exact h2 ⟨C, pre, l, lr, hq, hn⟩
      · exact h3 ⟨C, pre, s, hq, hn⟩
    rw [this, Set.ncard_empty]
    exact Nat.zero_le _

/-! ### The verifier's evaluations -/

/-- The state of the transcript is its history. -/
def histOf {E : Env F G} {ans : ℕ → Ω → Bytes} {H : Query → Ω} (st : (oracleEnv E ans H).St) : List Entry := st

/-- Where the verifier evaluates the function for the folding levels. -/
def levelsAsk (next : List Entry → Program Query Ω Unit) : ℕ → List Entry → List G → List G → Program Query Ω Unit
  | n, st, L :: Ls, R :: Rs =>
    .ask ((st ++ [.absorbed (decBytes n ++ [76]) (E.pointBytes L)]) ++ [.absorbed [82] (E.pointBytes R)], [120], 64) fun _ =>
      levelsAsk next (2 ^ Ls.length) (((st ++ [.absorbed (decBytes n ++ [76]) (E.pointBytes L)]) ++
        [.absorbed [82] (E.pointBytes R)]) ++ [.drawn [120] 64]) Ls Rs
  | _, st, _, _ => next st

/-- Where the verifier evaluates the function. -/
def verifierAsks (n : ℕ) (C : ι × G) (Ls Rs : List G) (s : σ) : Program Query Ω Unit :=
  .ask (start C.1 ++ [.absorbed [67] (E.pointBytes C.2)], [70], 32) fun _ =>
    levelsAsk E (fun st => .ask (st ++ lastE s, [120], 64) fun _ => .done ()) n (headEntries E start C) Ls Rs

theorem levelsAsk_length (H : Query → Ω) (next : List Entry → Program Query Ω Unit) (c : ℕ)
    (hc : ∀ st, ((next st).asked H).length = c) : ∀ (Ls Rs : List G) (n : ℕ) (st : List Entry), Ls.length = Rs.length →
      ((levelsAsk E next n st Ls Rs).asked H).length = Ls.length + c := by
  intro Ls
  induction Ls with
  | nil => intro Rs n st h; cases Rs with | nil => simp [levelsAsk, hc] | cons => simp at h
  | cons L Ls ih =>
    intro Rs n st h
    cases Rs with
    | nil => simp at h
    | cons R Rs =>
      simp only [levelsAsk, Program.asked, List.length_cons]
      rw [ih Rs _ _ (by simpa using h)]
      omega

theorem verifierAsks_length (H : Query → Ω) (n : ℕ) (C : ι × G) (Ls Rs : List G) (s : σ) (h : Ls.length = Rs.length) :
    ((verifierAsks E start lastE n C Ls Rs s).asked H).length = Ls.length + 2 := by
  simp only [verifierAsks, Program.asked, List.length_cons]
  rw [levelsAsk_length E H _ 1 (by intro st; simp [Program.asked]) Ls Rs _ _ h]

variable [Field F] [AddCommGroup G] [Module F G]

theorem levels_bad (H : Query → Ω) (C : ι × G) (s : σ) :
    ∀ (m : ℕ) (pre : List (Bytes × (G × G))) (Ls Rs : List G) (n : ℕ), Ls.length = m → Rs.length = m →
      pre.length + m = k C.1 →
      ¬ NodeAt d e P C (genOf E ans start H C) m (pre.map (·.2)) (chalsOf E ans H (headEntries E start C) pre) →
      P C (genOf E ans start H C) (pre.map (·.2) ++ Ls.zip Rs)
        (chalsOf E ans H (headEntries E start C) pre ++
          (foldChallenges (oracleEnv E ans H) n (headEntries E start C ++ levelEntries E.pointBytes pre) Ls Rs).1) s
        (E.scalarReduce (ans 64 (H (histOf (foldChallenges (oracleEnv E ans H) n
          (headEntries E start C ++ levelEntries E.pointBytes pre) Ls Rs).2 ++ lastE s, [120], 64)))) →
      ∃ q ∈ (levelsAsk E (fun st => .ask (st ++ lastE s, [120], 64) fun _ => .done ()) n
        (headEntries E start C ++ levelEntries E.pointBytes pre) Ls Rs).asked H,
        BadFor E ans start lastE d e k P H q (H q) := by
  intro m
  induction m with
  | zero =>
    intro pre Ls Rs n hL hR hk hn hP
    obtain rfl := List.length_eq_zero_iff.1 hL
    obtain rfl := List.length_eq_zero_iff.1 hR
    simp only [foldChallenges, List.zip_nil_left, List.append_nil] at hP
    refine ⟨_, by simp only [levelsAsk, Program.asked]; exact List.mem_singleton.2 rfl, Or.inr (Or.inr ⟨C, pre, s, ?_, ?_, ?_⟩)⟩
    · rw [List.append_assoc]
    · intro h; exact hn ⟨s, h⟩
    · exact hP
  | succ m ih =>
    intro pre Ls Rs n hL hR hk hn hP
    obtain ⟨L, Ls, rfl⟩ := List.exists_cons_of_length_eq_add_one hL
    obtain ⟨R, Rs, rfl⟩ := List.exists_cons_of_length_eq_add_one hR
    obtain ⟨q, hq⟩ : ∃ q : Query, q = ((headEntries E start C ++ levelEntries E.pointBytes pre ++
      [.absorbed (decBytes n ++ [76]) (E.pointBytes L)]) ++ [.absorbed [82] (E.pointBytes R)], [120], 64) := ⟨_, rfl⟩
    have hm : k C.1 - (pre.length + 1) = m := by omega
    by_cases hc : NodeAt d e P C (genOf E ans start H C) m (pre.map (·.2) ++ [(L, R)])
        (chalsOf E ans H (headEntries E start C) pre ++ [E.scalarReduce (ans 64 (H q))])
    · refine ⟨q, by simp only [levelsAsk, Program.asked]; rw [hq]; exact List.mem_cons_self,
        Or.inr (Or.inl ⟨C, pre, decBytes n ++ [76], (L, R), ?_, ?_, ?_⟩)⟩
      · rw [hq]; simp
      · rw [hm]; intro h; exact hn ⟨(L, R), h⟩
      · rw [hm]; exact hc
    · have hpre : ((headEntries E start C ++ levelEntries E.pointBytes pre ++
          [.absorbed (decBytes n ++ [76]) (E.pointBytes L)]) ++ [.absorbed [82] (E.pointBytes R)]) ++
            [.drawn [120] 64] = headEntries E start C ++
          levelEntries E.pointBytes (pre ++ [(decBytes n ++ [76], (L, R))]) := by
        simp [levelEntries]
      have hch : chalsOf E ans H (headEntries E start C) (pre ++ [(decBytes n ++ [76], (L, R))]) =
          chalsOf E ans H (headEntries E start C) pre ++ [E.scalarReduce (ans 64 (H q))] := by
        rw [chalsOf_snoc, hq]
        simp
      have := ih (pre ++ [(decBytes n ++ [76], (L, R))]) Ls Rs (2 ^ Ls.length) (by simpa using hL)
        (by simpa using hR) (by simp; omega)
        (by rw [hch]; simpa using hc) (by
          rw [← hpre, hch, hq]
          simpa [foldChallenges, oracleEnv, histOf] using hP)
      rw [← hpre] at this
      obtain ⟨q', h1, h2⟩ := this
      refine ⟨q', ?_, h2⟩
      simp only [levelsAsk, Program.asked, ← hq]
      exact List.mem_cons_of_mem _ h1

theorem verifier_bad (H : Query → Ω) (n : ℕ) (C : ι × G) (Ls Rs : List G) (s : σ) (hL : Ls.length = k C.1) (hR : Rs.length = k C.1)
    (hno : ¬ TopAt d e (k C.1) P C)
    (hP : P C (genOf E ans start H C) (Ls.zip Rs)
      (foldChallenges (oracleEnv E ans H) n
        (headEntries E start C) Ls Rs).1 s
      (E.scalarReduce (ans 64 (H (histOf (foldChallenges (oracleEnv E ans H) n
        (headEntries E start C) Ls Rs).2 ++ lastE s,
          [120], 64))))) :
    ∃ q ∈ (verifierAsks E start lastE n C Ls Rs s).asked H, BadFor E ans start lastE d e k P H q (H q) := by
  by_cases hc : NodeAt d e P C (genOf E ans start H C) (k C.1) [] []
  · exact ⟨_, List.mem_cons_self, Or.inl ⟨C, rfl, hno, hc⟩⟩
  · obtain ⟨q, h1, h2⟩ := levels_bad E ans start lastE d e k P H C s (k C.1) [] Ls Rs n hL hR (by simp)
      (by simpa [chalsOf] using hc) (by simpa [levelEntries, chalsOf] using hP)
    refine ⟨q, List.mem_cons_of_mem _ ?_, h2⟩
    simpa [levelEntries] using h1

/-- Without a tree few functions make the program output an accepted proof. -/
theorem forge_count [Finite F] [Finite G] [Finite Ω] {Pf : Type}
    (hst : ∀ i i' l l', start i ++ l = start i' ++ l' → i = i' ∧ l = l') (hpb : Function.Injective E.pointBytes)
    (hlast : ∀ s, NoDraw (lastE s)) (hne : ∀ s, lastE s ≠ []) (hinj : Function.Injective lastE)
    (hdis : ∀ s l a b, lastE s ≠ [.absorbed l a, .absorbed [82] b]) (μ ν : ℕ)
    (hμ : ∀ c, {o | E.scalarReduce (ans 64 o) = c}.ncard ≤ μ) (hν : ∀ g, {o | E.fromUniform (ans 32 o) = g}.ncard ≤ ν)
    (b : ℕ) (hb1 : ν ≤ b) (hb2 : (d - 1) * μ ≤ b) (hb3 : (e - 1) * μ ≤ b)
    (K : ℕ) (hK : ∀ i, k i ≤ K)
    (A : Program Query Ω Pf) (T : ℕ) (hT : ∀ H, (A.asked H).length ≤ T) (n : ι → ℕ)
    (cm : Pf → Option (ι × G)) (ls rs : Pf → List G) (sm : Pf → σ) (acc : (Query → Ω) → Prop)
    (hacc : ∀ H, acc H → ∃ C, cm (A.run H) = some C ∧ (ls (A.run H)).length = k C.1 ∧ (rs (A.run H)).length = k C.1 ∧
      P C (genOf E ans start H C) ((ls (A.run H)).zip (rs (A.run H)))
        (foldChallenges (oracleEnv E ans H) (n C.1) (headEntries E start C) (ls (A.run H)) (rs (A.run H))).1 (sm (A.run H))
        (E.scalarReduce (ans 64 (H (histOf (foldChallenges (oracleEnv E ans H) (n C.1) (headEntries E start C)
           (ls (A.run H)) (rs (A.run H))).2 ++ lastE (sm (A.run H)), [120], 64)))))
    (hno : ∀ C : ι × G, ¬ TopAt d e (k C.1) P C) :
    ∃ D₀ : Finset Query, ∀ D, D₀ ⊆ D → ∀ H₀ : Query → Ω,
      {H : D → Ω | acc (onSet D H₀ H)}.ncard * Nat.card Ω ≤ (T + K + 2) * b * Nat.card (D → Ω) := by
  classical
  obtain ⟨W, hW⟩ : ∃ W : Pf → Program Query Ω Unit, W = fun pf => match cm pf with
    | some C => if (ls pf).length = k C.1 ∧ (rs pf).length = k C.1 then
        verifierAsks E start lastE (n C.1) C (ls pf) (rs pf) (sm pf) else .done ()
    | none => .done () := ⟨_, rfl⟩
  obtain ⟨B, hB⟩ : ∃ B : Program Query Ω Unit, B = A.andThen W := ⟨_, rfl⟩
  refine ⟨B.mentions_finite.toFinset, fun D hD H₀ => ?_⟩
  have h1 := hit_count B D H₀ (fun H q hq => hD (by
    rw [Set.Finite.mem_toFinset]; exact B.asked_mentions H q hq)) (BadFor E ans start lastE d e k P)
    (bad_local E ans start lastE d e k P hne) b
    (bad_few E ans start lastE d e k P hst hpb hlast hinj hdis μ ν hμ hν b hb1 hb2 hb3) (T + K + 2) (by
      intro H
      rw [hB, Program.asked_andThen, List.length_append]
      have := hT H
      have hw : ((W (A.run H)).asked H).length ≤ K + 2 := by
        rw [hW]
        dsimp only
        split
        · rename_i C _
          split
          · rename_i h
            rw [verifierAsks_length E start lastE H (n C.1) _ _ _ _ (h.1.trans h.2.symm), h.1]
            have := hK C.1
            omega
          · simp [Program.asked]
        · simp [Program.asked]
      omega)
  refine le_trans (Nat.mul_le_mul_right _ (Set.ncard_le_ncard ?_ (Set.toFinite _))) h1
  intro H hH
  obtain ⟨C, a0, a1, a2, a3⟩ := hacc _ hH
  obtain ⟨q, b1, b2⟩ := verifier_bad E ans start lastE d e k P (onSet D H₀ H) (n C.1) C _ _ _ a1 a2 (hno _) a3
  refine ⟨q, ?_, b2⟩
  rw [hB, Program.asked_andThen, hW]
  dsimp only
  rw [a0]
  dsimp only
  rw [if_pos ⟨a1, a2⟩]
  exact List.mem_append_right _ b1

end
end Verif
