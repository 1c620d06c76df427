/-
Lemmas about the exponentiation counter.
-/
import Verif.Spec.Count
import Verif.Lemmas.BPVerify
import Verif.Lemmas.BPTag
import Verif.Lemmas.Honest

namespace Verif
open Verif.Spec

theorem Spec.Counts.cast {α : Type} {p : Cnt α} {q : Res α} {N M : Nat} (h : Counts p q N)
    (e : N = M) : Counts p q M := e ▸ h

theorem Spec.Counts.ret {α : Type} (a : α) : Counts (pure a) (.ok a) 0 := fun c =>
  ⟨0, 0, rfl, rfl⟩

theorem Spec.Counts.ub {α : Type} {N : Nat} : Counts (liftM (Res.ub : Res α)) (.ub : Res α) N :=
  fun _ => rfl

theorem Spec.Counts.throw {α : Type} {N : Nat} : Counts (liftM (Res.throw : Res α)) (.throw : Res α) N :=
  fun _ => rfl

theorem Spec.Counts.bind {α β : Type} {p : Cnt α} {q : Res α} {f : α → Cnt β} {g : α → Res β}
    {N M : Nat} (h1 : Counts p q N) (h2 : ∀ v, q = .ok v → Counts (f v) (g v) M) :
    Counts (p >>= f) (q >>= g) (N + M) := by
  intro c
  have h := h1 c
  cases q with
  | throw => 
    change (p c).bind _ = _
    rw [show p c = .throw from h]
    rfl
  | ub => 
    change (p c).bind _ = _
    rw [show p c = .ub from h]
    rfl
  | ok v =>
    obtain ⟨d, t, hdt, hp⟩ := h
    have h' := h2 v rfl ⟨c.counter + d, c.trivial + t⟩
    have e : (p >>= f) c = f v ⟨c.counter + d, c.trivial + t⟩ := by
      change (p c).bind _ = _
      rw [hp]
      rfl
    rw [Res.ok_bind, e]
    cases hg : g v with
    | throw => rw [hg] at h'; exact h'
    | ub => rw [hg] at h'; exact h'
    | ok w =>
      rw [hg] at h'
      obtain ⟨d', t', hdt', hp'⟩ := h'
      exact ⟨d + d', t + t', by omega, by
        rw [hp']
        simp only [Nat.add_assoc]⟩

theorem Spec.Counts.lift {α β : Type} {r : Res α} {f : α → Cnt β} {g : α → Res β} {N : Nat}
    (h : ∀ v, r = .ok v → Counts (f v) (g v) N) : Counts (liftM r >>= f) (r >>= g) N := by
  intro c
  cases r with
  | throw => rfl
  | ub => rfl
  | ok v => exact h v rfl c

section
variable {F G : Type} [Field F] [AddCommGroup G] [Module F G] [DecidableEq F] [DecidableEq G]

theorem Spec.Counts.smul {β : Type} {x : F} {P : G} {f : G → Cnt β} {q : Res β} {N : Nat}
    (h : Counts (f (x • P)) q N) : Counts (smulC x P >>= f) q (N + 1) := by
  have h1 : Counts (smulC x P) (.ok (x • P)) 1 := by
    intro c
    unfold smulC
    by_cases h0 : P = 0 ∨ x = 0
    · exact ⟨0, 1, rfl, by rw [if_pos h0]; rfl⟩
    · exact ⟨1, 0, rfl, by rw [if_neg h0]; rfl⟩
  have := Counts.bind (g := fun _ => q) (f := f) (M := N) h1 (by
    intro v hv
    simp only [Res.ok.injEq] at hv
    subst hv
    exact h)
  exact this.cast (by omega)

theorem Spec.Counts.bindK {α β : Type} {p : Cnt α} {q : Res α} {f : α → Cnt β} {g : α → Res β}
    {N K : Nat} (h1 : Counts p q N) (hK : N ≤ K)
    (h2 : ∀ v, q = .ok v → Counts (f v) (g v) (K - N)) : Counts (p >>= f) (q >>= g) K :=
  (Counts.bind h1 h2).cast (by omega)

theorem Spec.Counts.smulK {β : Type} {x : F} {P : G} {f : G → Cnt β} {q : Res β} {K : Nat}
    (hK : 1 ≤ K) (h : Counts (f (x • P)) q (K - 1)) : Counts (smulC x P >>= f) q K :=
  (Counts.smul h).cast (by omega)

theorem Spec.Counts.retK {α : Type} (a : α) {K : Nat} (hK : K = 0) : Counts (pure a) (.ok a) K :=
  hK ▸ Counts.ret a

theorem multiExpAccC_counts (gs : List G) : ∀ (xs : List F) (c : G), gs.length = xs.length →
    Counts (multiExpAccC c gs xs) (.ok (multiExpAcc c gs xs)) gs.length := by
  induction gs with
  | nil => intro xs c _; exact Counts.ret _
  | cons g gs ih =>
    intro xs c h
    cases xs with
    | nil => simp at h
    | cons x xs => exact Counts.smul (ih xs _ (by simpa using h))

theorem rdN_length {α : Type} {p l : List α} {n : Nat} (h : rdN p n = .ok l) : l.length = n := by
  unfold rdN at h
  split at h
  · simp only [Res.ok.injEq] at h
    subst h
    simp
    omega
  · cases h

theorem multiExpC_counts (Gs : List G) (n : Nat) (xes : List F) :
    Counts (multiExpC Gs n xes) (multiExp Gs n xes) n := by
  refine Counts.lift fun gs h1 => Counts.lift fun xs h2 => ?_
  exact (multiExpAccC_counts gs xs 0 (by rw [rdN_length h1, rdN_length h2])).cast (rdN_length h1)

theorem multiBaseOneExpC_counts (x : F) (gs : List G) :
    Counts (multiBaseOneExpC x gs) (.ok (multiBaseOneExp gs x)) gs.length := by
  induction gs with
  | nil => exact Counts.ret _
  | cons g gs ih =>
    have : Counts (multiBaseOneExpC x gs >>= fun ps => (pure ((x • g) :: ps) : Cnt (List G)))
        (.ok (multiBaseOneExp gs x) >>= fun ps => .ok ((x • g) :: ps)) (gs.length + 0) :=
      Counts.bind ih fun _ _ => Counts.ret _
    exact Counts.smul this

theorem foldGeneratorsC_counts (Gs : List G) (n : Nat) (x : F) (nOver2 : Nat) :
    Counts (foldGeneratorsC Gs n x nOver2) (foldGenerators Gs n x nOver2) (n - nOver2) := by
  refine Counts.lift fun gs h1 => ?_
  split
  · exact Counts.ub
  · have : Counts (multiBaseOneExpC x (gs.drop nOver2) >>= fun hi =>
          (pure (addInto (gs.take nOver2 ++ hi) ((gs.take nOver2 ++ hi).drop nOver2)) : Cnt (List G)))
        (.ok (multiBaseOneExp (gs.drop nOver2) x) >>= fun hi =>
          .ok (addInto (gs.take nOver2 ++ hi) ((gs.take nOver2 ++ hi).drop nOver2)))
        ((gs.drop nOver2).length + 0) :=
      Counts.bind (multiBaseOneExpC_counts x _) fun _ _ => Counts.ret _
    exact this.cast (by rw [List.length_drop, rdN_length h1]; omega)

theorem expSubsetProductC_counts (Gs : List G) (n : Nat) (xes : List F) (a : F)
    (off : Option (List F)) :
    Counts (expSubsetProductC Gs n xes a off) (expSubsetProduct Gs n xes a off) n := by
  refine Counts.lift fun prods _ => ?_
  cases off with
  | none => exact multiExpC_counts _ _ _
  | some off => exact Counts.lift fun _ _ => multiExpC_counts _ _ _

theorem commitC_counts (base : G) (Gs : List G) (xes : List F) (n : Nat) (r : F) (Fg : G)
    (alpha : F) : Counts (commitC base Gs xes n r Fg alpha) (commit base Gs xes n r Fg alpha) (n + 2) := by
  refine Counts.bind (multiExpC_counts _ _ _) fun _ _ => ?_
  refine Counts.smul ?_
  refine Counts.smul ?_
  exact Counts.ret _

theorem commit2C_counts (base : G) (Gs : List G) (xes : List F) (Hs : List G) (ys : List F) (n : Nat)
    (r : F) (Fg : G) (alpha : F) :
    Counts (commit2C base Gs xes Hs ys n r Fg alpha) (commit2 base Gs xes Hs ys n r Fg alpha)
      (2 * n + 2) := by
  refine Counts.bindK (multiExpC_counts Gs n xes) (by omega) fun _ _ => ?_
  refine Counts.bindK (multiExpC_counts Hs n ys) (by omega) fun _ _ => ?_
  refine Counts.smulK (by omega) ?_
  refine Counts.smulK (by omega) ?_
  exact Counts.retK _ (by omega)

theorem proveLinLoopC_counts (E : Env F G) (coins : Nat → F × F) (Fg : G) (ell : Nat) :
    ∀ (n h : Nat) (s : LinProverState F G E.St), Level n h ell →
      Counts (proveLinLoopC E coins Fg n h s) (proveLinLoop E coins Fg n h s)
        (3 * (n - 1) + 4 * ell) := by
  induction ell with
  | zero =>
    intro n h s hl
    have hn : n = 1 := hl
    subst hn
    unfold proveLinLoopC proveLinLoop
    rw [if_neg (by omega), if_neg (by omega)]
    exact Counts.ret _
  | succ m ih =>
    intro n h s hl
    obtain ⟨h1, h2, h3, h4⟩ := Level.half hl
    have hpos : 0 < h := by rw [h4]; exact Nat.two_pow_pos m
    unfold proveLinLoopC proveLinLoop
    rw [if_pos h3, if_pos h3]
    rcases coins s.k with ⟨sb, tb⟩
    dsimp only
    refine Counts.bindK (multiExpC_counts _ _ _) (by omega) fun m1 _ => ?_
    refine Counts.lift fun i1 _ => ?_
    refine Counts.smulK (by omega) ?_
    refine Counts.smulK (by omega) ?_
    refine Counts.bindK (multiExpC_counts _ _ _) (by omega) fun m2 _ => ?_
    refine Counts.lift fun i2 _ => ?_
    refine Counts.smulK (by omega) ?_
    refine Counts.smulK (by omega) ?_
    generalize E.newChallenge _ lblx = ch
    obtain ⟨x, st⟩ := ch
    dsimp only
    refine Counts.lift fun xInv _ => ?_
    refine Counts.lift fun a2 _ => ?_
    refine Counts.lift fun b2 _ => ?_
    refine Counts.bindK (foldGeneratorsC_counts _ _ _ _) (by omega) fun gs _ => ?_
    exact (ih h (h / 2) _ (Level.next hl)).cast (by omega)

theorem proveQuadLoopC_counts (E : Env F G) (coins : Nat → F × F) (Fg : G) (ell : Nat) :
    ∀ (n h : Nat) (s : QuadProverState F G E.St), Level n h ell →
      Counts (proveQuadLoopC E coins Fg n h s) (proveQuadLoop E coins Fg n h s)
        (6 * (n - 1) + 4 * ell) := by
  induction ell with
  | zero =>
    intro n h s hl
    have hn : n = 1 := hl
    subst hn
    unfold proveQuadLoopC proveQuadLoop
    rw [if_neg (by omega), if_neg (by omega)]
    exact Counts.ret _
  | succ m ih =>
    intro n h s hl
    obtain ⟨h1, h2, h3, h4⟩ := Level.half hl
    have hpos : 0 < h := by rw [h4]; exact Nat.two_pow_pos m
    unfold proveQuadLoopC proveQuadLoop
    rw [if_pos h3, if_pos h3]
    rcases coins s.k with ⟨sb, tb⟩
    dsimp only
    refine Counts.bindK (multiExpC_counts _ _ _) (by omega) fun m1 _ => ?_
    refine Counts.bindK (multiExpC_counts _ _ _) (by omega) fun m1' _ => ?_
    refine Counts.lift fun i1 _ => ?_
    refine Counts.smulK (by omega) ?_
    refine Counts.smulK (by omega) ?_
    refine Counts.bindK (multiExpC_counts _ _ _) (by omega) fun m2 _ => ?_
    refine Counts.bindK (multiExpC_counts _ _ _) (by omega) fun m2' _ => ?_
    refine Counts.lift fun i2 _ => ?_
    refine Counts.smulK (by omega) ?_
    refine Counts.smulK (by omega) ?_
    generalize E.newChallenge _ lblx = ch
    obtain ⟨x, st⟩ := ch
    dsimp only
    refine Counts.lift fun xInv _ => ?_
    refine Counts.lift fun a2 _ => ?_
    refine Counts.lift fun b2 _ => ?_
    refine Counts.bindK (foldGeneratorsC_counts _ _ _ _) (by omega) fun gs _ => ?_
    refine Counts.bindK (foldGeneratorsC_counts _ _ _ _) (by omega) fun hs _ => ?_
    exact (ih h (h / 2) _ (Level.next hl)).cast (by omega)

theorem proveLinearC_counts (E : Env F G) (coins : Nat → F × F) (pf : LinPf F G) (r : F) (st : E.St)
    (as bs : List F) (gs : List G) (n : Nat) (h1 : 1 ≤ n) (h2 : n ≤ 2 ^ 63) :
    Counts (proveLinearC E coins pf r st as bs gs n) (proveLinear E coins pf r st as bs gs n)
      (3 * n + 4 * log2roundUp n) := by
  unfold proveLinearC proveLinear
  dsimp only
  refine Counts.bindK (proveLinLoopC_counts E coins _ _ n _ _ (level_log h1 h2)) (by omega)
    fun e _ => ?_
  rcases coins e.k with ⟨s, t⟩
  dsimp only
  refine Counts.lift fun g0 _ => ?_
  refine Counts.lift fun b0 _ => ?_
  refine Counts.lift fun a0 _ => ?_
  refine Counts.smulK (by omega) ?_
  refine Counts.smulK (by omega) ?_
  refine Counts.smulK (by omega) ?_
  exact Counts.retK _ (by omega)

theorem proveQuadraticC_counts (E : Env F G) (coins : Nat → F × F) (pf : QuadPf F G) (r : F)
    (st : E.St) (gs : List G) (as : List F) (hs : List G) (bs : List F) (n : Nat) (h1 : 1 ≤ n)
    (h2 : n ≤ 2 ^ 63) :
    Counts (proveQuadraticC E coins pf r st gs as hs bs n)
      (proveQuadratic E coins pf r st gs as hs bs n) (6 * n + 4 * log2roundUp n) := by
  unfold proveQuadraticC proveQuadratic
  dsimp only
  refine Counts.bindK (proveQuadLoopC_counts E coins _ _ n _ _ (level_log h1 h2)) (by omega)
    fun e _ => ?_
  rcases coins e.k with ⟨s, t⟩
  rcases coins (e.k + 1) with ⟨u, v⟩
  dsimp only
  refine Counts.lift fun g0 _ => ?_
  refine Counts.lift fun h0 _ => ?_
  refine Counts.lift fun a0 _ => ?_
  refine Counts.lift fun b0 _ => ?_
  refine Counts.smulK (by omega) ?_
  refine Counts.smulK (by omega) ?_
  refine Counts.smulK (by omega) ?_
  refine Counts.smulK (by omega) ?_
  refine Counts.smulK (by omega) ?_
  refine Counts.smulK (by omega) ?_
  exact Counts.retK _ (by omega)

theorem verifyLinearC_counts (E : Env F G) (pf : LinPf F G) (bs : List F) (gs : List G) (n : Nat)
    (eq : F) (st : E.St) (w : Option (List F)) :
    Counts (verifyLinearC E pf bs gs n eq st w) (verifyLinear E pf bs gs n eq st w)
      (n + 2 * log2roundUp n + 4) := by
  unfold verifyLinearC verifyLinear
  dsimp only
  refine Counts.smulK (by omega) ?_
  by_cases hL : pf.Ls.length ≠ log2roundUp n ∨ pf.Rs.length ≠ log2roundUp n
  · rw [if_pos hL, if_pos hL]
    exact Counts.throw
  · rw [if_neg hL, if_neg hL]
    push Not at hL
    obtain ⟨hL1, hL2⟩ := hL
    refine Counts.lift fun v _ => ?_
    obtain ⟨xes, xInvs, bs', st⟩ := v
    dsimp only
    refine Counts.bindK (multiExpC_counts _ _ _) (by omega) fun m1 _ => ?_
    refine Counts.bindK (multiExpC_counts _ _ _) (by omega) fun m2 _ => ?_
    generalize E.newChallenge _ lblx = ch
    obtain ⟨x, st⟩ := ch
    dsimp only
    refine Counts.lift fun xInv _ => ?_
    cases w with
    | none =>
      refine Counts.lift fun off _ => ?_
      refine Counts.bindK (expSubsetProductC_counts _ _ _ _ _) (by omega) fun tmp _ => ?_
      refine Counts.lift fun b0 _ => ?_
      refine Counts.smulK (by omega) ?_
      refine Counts.smulK (by omega) ?_
      refine Counts.smulK (by omega) ?_
      exact Counts.retK _ (by omega)
    | some w =>
      dsimp only
      generalize rdN w n = w'
      cases w' with
      | throw => intro c; rfl
      | ub => intro c; rfl
      | ok w' =>
        rw [Res.ok_bind, Res.ok_bind]
        refine Counts.lift fun off _ => ?_
        refine Counts.bindK (expSubsetProductC_counts _ _ _ _ _) (by omega) fun tmp _ => ?_
        refine Counts.lift fun b0 _ => ?_
        refine Counts.smulK (by omega) ?_
        refine Counts.smulK (by omega) ?_
        refine Counts.smulK (by omega) ?_
        exact Counts.retK _ (by omega)

theorem verifyQuadraticC_counts (E : Env F G) (pf : QuadPf F G) (gs hs : List G) (n : Nat)
    (eq : F) (st : E.St) (u v : Option (List F)) :
    Counts (verifyQuadraticC E pf gs hs n eq st u v) (verifyQuadratic E pf gs hs n eq st u v)
      (2 * n + 2 * log2roundUp n + 5) := by
  unfold verifyQuadraticC verifyQuadratic
  dsimp only
  refine Counts.smulK (by omega) ?_
  by_cases hL : pf.Ls.length ≠ log2roundUp n ∨ pf.Rs.length ≠ log2roundUp n
  · rw [if_pos hL, if_pos hL]
    exact Counts.throw
  · rw [if_neg hL, if_neg hL]
    push Not at hL
    obtain ⟨hL1, hL2⟩ := hL
    refine Counts.lift fun w _ => ?_
    obtain ⟨xes, xInvs, st⟩ := w
    dsimp only
    refine Counts.bindK (multiExpC_counts _ _ _) (by omega) fun m1 _ => ?_
    refine Counts.bindK (multiExpC_counts _ _ _) (by omega) fun m2 _ => ?_
    refine Counts.bindK (expSubsetProductC_counts _ _ _ _ _) (by omega) fun tG _ => ?_
    refine Counts.bindK (expSubsetProductC_counts _ _ _ _ _) (by omega) fun tH _ => ?_
    generalize E.newChallenge _ lblx = ch
    obtain ⟨x, st⟩ := ch
    dsimp only
    refine Counts.smulK (by omega) ?_
    refine Counts.smulK (by omega) ?_
    refine Counts.smulK (by omega) ?_
    refine Counts.smulK (by omega) ?_
    exact Counts.retK _ (by omega)

theorem flatLinLoop_length (E : Env F G) (tag : Bytes) (b : Bool) (terms : PtxtVec F) :
    ∀ (xes : PtxtVec F) v, flatLinLoop E tag b terms xes = .ok v → v.1.length = terms.length := by
  induction terms with
  | nil =>
    intro xes v h
    simp only [flatLinLoop, Res.ok.injEq] at h
    subst h
    rfl
  | cons t terms ih =>
    intro xes v h
    obtain ⟨i, a⟩ := t
    cases b with
    | false =>
      simp only [flatLinLoop, Bool.false_eq_true, if_false] at h
      obtain ⟨⟨gs, st, ws⟩, h1, h2⟩ := Res.bind_eq_ok.1 h
      simp only [Res.ok.injEq] at h2
      subst h2
      have := ih xes _ h1
      simpa using this
    | true =>
      cases xes with
      | nil => simp [flatLinLoop] at h
      | cons e xes =>
        obtain ⟨k, x⟩ := e
        simp only [flatLinLoop, if_true] at h
        split at h
        · cases h
        · obtain ⟨⟨gs, st, ws⟩, h1, h2⟩ := Res.bind_eq_ok.1 h
          simp only [Res.ok.injEq] at h2
          subst h2
          have := ih xes _ h1
          simpa using this

theorem flatQuadLoop_length (E : Env F G) (tag : Bytes) (b : Bool) (idx : List Nat) :
    ∀ (xes ys : PtxtVec F) v, flatQuadLoop E tag b idx xes ys = .ok v → v.1.length = idx.length := by
  induction idx with
  | nil =>
    intro xes ys v h
    simp only [flatQuadLoop, Res.ok.injEq] at h
    subst h
    rfl
  | cons i idx ih =>
    intro xes ys v h
    cases b with
    | false =>
      simp only [flatQuadLoop, Bool.false_eq_true, if_false] at h
      obtain ⟨⟨gs, hs, ws, vs⟩, h1, h2⟩ := Res.bind_eq_ok.1 h
      simp only [Res.ok.injEq] at h2
      subst h2
      have := ih xes ys _ h1
      simpa using this
    | true =>
      cases xes with
      | nil => simp [flatQuadLoop] at h
      | cons e xes =>
        cases ys with
        | nil => simp [flatQuadLoop] at h
        | cons f ys =>
          obtain ⟨k, x⟩ := e
          obtain ⟨k', y⟩ := f
          simp only [flatQuadLoop, if_true] at h
          split at h
          · cases h
          · obtain ⟨⟨gs, hs, ws, vs⟩, h1, h2⟩ := Res.bind_eq_ok.1 h
            simp only [Res.ok.injEq] at h2
            subst h2
            have := ih xes ys _ h1
            simpa using this

theorem mkFlatLin_length {E : Env F G} {tag : Bytes} {c : LinConstraint F} {xes : PtxtVec F}
    {fs : FlatLinStmt F G} (h : mkFlatLin E tag c xes = .ok fs) :
    1 ≤ c.terms.length ∧ c.terms.length ≤ 2 ^ 20 ∧ fs.generators.length = c.terms.length := by
  unfold mkFlatLin at h
  dsimp only at h
  split at h
  · cases h
  · split at h
    · cases h
    · obtain ⟨⟨gs, st, ws⟩, h1, h2⟩ := Res.bind_eq_ok.1 h
      simp only [Res.ok.injEq] at h2
      subst h2
      refine ⟨by omega, by omega, flatLinLoop_length E tag _ _ _ _ h1⟩

theorem mkFlatQuad_length {E : Env F G} {tag : Bytes} {c : QuadConstraint F} {xes ys : PtxtVec F}
    {fs : FlatQuadStmt F G} (h : mkFlatQuad E tag c xes ys = .ok fs) :
    1 ≤ c.indexes.length ∧ c.indexes.length ≤ 2 ^ 20 ∧ fs.gs.length = c.indexes.length := by
  unfold mkFlatQuad at h
  dsimp only at h
  split at h
  · cases h
  · split at h
    · cases h
    · obtain ⟨⟨gs, hs, ws, vs⟩, h1, h2⟩ := Res.bind_eq_ok.1 h
      simp only [Res.ok.injEq] at h2
      subst h2
      refine ⟨by omega, by omega, flatQuadLoop_length E tag _ _ _ _ _ h1⟩

theorem proveLinearTagC_counts (E : Env F G) (coins : Nat → F × F) (r : F) (tag : Bytes)
    (c : LinConstraint F) (xes : PtxtVec F) :
    Counts (proveLinearTagC E coins r tag c xes) (proveLinearTag E coins r tag c xes)
      (4 * c.terms.length + 4 * log2roundUp c.terms.length + 2) := by
  refine Counts.lift fun fs hfs => ?_
  obtain ⟨h1, h2, h3⟩ := mkFlatLin_length hfs
  rw [h3]
  refine Counts.bindK (commitC_counts _ _ _ _ _ _ _) (by omega) fun C _ => ?_
  refine Counts.bindK (proveLinearC_counts E coins _ r _ _ _ _ _ h1 (h2.trans (by norm_num)))
    (by omega) fun v _ => ?_
  exact Counts.retK _ (by omega)

theorem verifyLinearTagC_counts (E : Env F G) (c : LinConstraint F) (pf : LinPf F G) :
    Counts (verifyLinearTagC E c pf) (verifyLinearTag E c pf)
      (c.terms.length + 2 * log2roundUp c.terms.length + 4) := by
  refine Counts.lift fun fs hfs => ?_
  obtain ⟨h1, h2, h3⟩ := mkFlatLin_length hfs
  rw [h3]
  refine Counts.bindK (verifyLinearC_counts E pf _ _ _ _ _ _) (by omega) fun v _ => ?_
  exact Counts.retK _ (by omega)

theorem proveQuadraticTagC_counts (E : Env F G) (coins : Nat → F × F) (r : F) (tag : Bytes)
    (c : QuadConstraint F) (xs ys : PtxtVec F) :
    Counts (proveQuadraticTagC E coins r tag c xs ys) (proveQuadraticTag E coins r tag c xs ys)
      (8 * c.indexes.length + 4 * log2roundUp c.indexes.length + 2) := by
  refine Counts.lift fun fs hfs => ?_
  obtain ⟨h1, h2, h3⟩ := mkFlatQuad_length hfs
  rw [h3]
  refine Counts.bindK (commit2C_counts _ _ _ _ _ _ _ _ _) (by omega) fun C _ => ?_
  refine Counts.bindK (proveQuadraticC_counts E coins _ r _ _ _ _ _ _ h1 (h2.trans (by norm_num)))
    (by omega) fun v _ => ?_
  exact Counts.retK _ (by omega)

theorem verifyQuadraticTagC_counts (E : Env F G) (c : QuadConstraint F) (pf : QuadPf F G) :
    Counts (verifyQuadraticTagC E c pf) (verifyQuadraticTag E c pf)
      (2 * c.indexes.length + 2 * log2roundUp c.indexes.length + 5) := by
  refine Counts.lift fun fs hfs => ?_
  obtain ⟨h1, h2, h3⟩ := mkFlatQuad_length hfs
  rw [h3]
  refine Counts.bindK (verifyQuadraticC_counts E pf _ _ _ _ _ _ _) (by omega) fun v _ => ?_
  exact Counts.retK _ (by omega)

theorem proveNormSquaredC_counts (E : Env F G) (coins : Nat → F × F) (r : F) (pf : QuadPf F G)
    (st : E.St) (vec : PtxtVec F) :
    Counts (proveNormSquaredC E coins r pf st vec) (proveNormSquared E coins r pf st vec)
      (8 * vec.length + 4 * log2roundUp vec.length + 2) := by
  refine Counts.lift fun fs hfs => ?_
  obtain ⟨h1, h2, h3⟩ := mkFlatQuad_length hfs
  have hv : (normConstraint vec).indexes.length = vec.length := by simp [normConstraint_eq]
  rw [hv] at h1 h2 h3
  rw [h3]
  dsimp only
  refine Counts.bindK (commit2C_counts _ _ _ _ _ _ _ _ _) (by omega) fun C _ => ?_
  refine Counts.bindK (proveQuadraticC_counts E coins _ r _ _ _ _ _ _ h1 (h2.trans (by norm_num)))
    (by omega) fun v _ => ?_
  exact Counts.retK _ (by omega)

theorem verifyNormSquaredC_counts (E : Env F G) (idx : List Nat) (normSq : F) (pf : QuadPf F G) :
    Counts (verifyNormSquaredC E idx normSq pf) (verifyNormSquared E idx normSq pf)
      (2 * idx.length + 2 * log2roundUp idx.length + 5) := by
  refine Counts.lift fun fs hfs => ?_
  obtain ⟨h1, h2, h3⟩ := mkFlatQuad_length hfs
  dsimp only at h1 h2 h3
  rw [h3]
  dsimp only
  refine Counts.bindK (verifyQuadraticC_counts E pf _ _ _ _ _ _ _) (by omega) fun v _ => ?_
  exact Counts.retK _ (by omega)

end

end Verif
