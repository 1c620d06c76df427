import Verif.Model.RegevProofs
import Verif.Lemmas.RegevEnc
import Verif.Lemmas.Constraints2
import Verif.Props.RegevUtils
import Verif.Props.Ternary

namespace Verif
open Spec Regev

section
variable {F : Type} [Field F] [DecidableEq F] {ell : ℕ}

omit [DecidableEq F] in
theorem addTerm_keys (c : LinConstraint F) (i : ℕ) (s : F) (k : ℕ) (h : k ∈ keys (c.addTerm i s).terms) :
    k = i ∨ k ∈ keys c.terms := by
  unfold LinConstraint.addTerm at h
  simp only at h
  generalize c.terms = m at h ⊢
  induction m with
  | nil => simp [addToKey, keys] at h; exact Or.inl h
  | cons p m ih =>
    unfold addToKey at h
    split at h
    · simp [keys] at h ⊢; tauto
    · split at h
      · simp [keys] at h ⊢; tauto
      · simp only [keys, List.map_cons, List.mem_cons] at h ih ⊢
        rcases h with h | h
        · tauto
        · rcases ih h with h | h <;> tauto

omit [DecidableEq F] in
theorem foldl_keys {α : Type} (l : List α) (f : α → ℕ) (g : α → F) (c : LinConstraint F) (k : ℕ)
    (h : k ∈ keys (l.foldl (fun c j => c.addTerm (f j) (g j)) c).terms) :
    (∃ a ∈ l, k = f a) ∨ k ∈ keys c.terms := by
  induction l generalizing c with
  | nil => exact Or.inr h
  | cons a l ih =>
    rw [List.foldl_cons] at h
    rcases ih _ h with ⟨b, hb, e⟩ | h
    · exact Or.inl ⟨b, List.mem_cons_of_mem _ hb, e⟩
    · rcases addTerm_keys c _ _ k h with e | h
      · exact Or.inl ⟨a, List.mem_cons_self, e⟩
      · exact Or.inr h

end

section
variable {q : ℕ} [Fact q.Prime]

/-- The first two constraints of a list: sorted terms on variables in `K`, right-hand sides the
coefficients of `e`, left-hand sides those of `f`. -/
def Pair (cs : List (LinConstraint (ZMod q))) (K : ℕ → Prop) (e : Elt (ZMod q) 2)
    (f : (ℕ → ZMod q) → Elt (ZMod q) 2) : Prop :=
  ∀ i : Fin 2, ∃ c, cs[i.val]? = some c ∧ Sorted c.terms ∧ (∀ k ∈ keys c.terms, K k) ∧
    c.equalsTo = e.c i ∧ ∀ x, linLhs c x = (f x).c i

/-- The list has changed at most in its first two entries. -/
def Beyond (cs out : List (LinConstraint (ZMod q))) : Prop :=
  out.length = cs.length ∧ ∀ i, 2 ≤ i → out[i]? = cs[i]?

theorem Beyond.refl (cs : List (LinConstraint (ZMod q))) : Beyond cs cs := ⟨rfl, fun _ _ => rfl⟩

theorem Beyond.trans {a b c : List (LinConstraint (ZMod q))} (h1 : Beyond a b) (h2 : Beyond b c) :
    Beyond a c := ⟨h2.1.trans h1.1, fun i hi => (h2.2 i hi).trans (h1.2 i hi)⟩

theorem Pair.length {cs : List (LinConstraint (ZMod q))} {K e f} (h : Pair cs K e f) : 2 ≤ cs.length := by
  obtain ⟨c, hc, _⟩ := h 1
  have := (List.getElem?_eq_some_iff.1 hc).1
  exact this

theorem Pair.mono {cs : List (LinConstraint (ZMod q))} {K K' : ℕ → Prop} {e e'} {f f' : (ℕ → ZMod q) → Elt (ZMod q) 2}
    (h : Pair cs K e f) (hK : ∀ k, K k → K' k) (he : e = e') (hf : ∀ x, f x = f' x) : Pair cs K' e' f' := by
  intro i
  obtain ⟨c, h1, h2, h3, h4, h5⟩ := h i
  exact ⟨c, h1, h2, fun k hk => hK k (h3 k hk), he ▸ h4, fun x => by rw [h5, hf]⟩

theorem resetSlot_spec (cs : List (LinConstraint (ZMod q))) (h : 2 ≤ cs.length) :
    ∃ out, resetSlot cs = .ok out ∧ Pair out (fun _ => False) 0 (fun _ => 0) ∧ Beyond cs out := by
  unfold resetSlot
  rw [if_neg (by omega)]
  refine ⟨_, rfl, ?_, by simp, ?_⟩
  · intro i
    have hi : i.val < cs.length := by omega
    refine ⟨⟨[], 0⟩, ?_, by simp [Sorted], by simp [keys], rfl, by simp [linLhs]⟩
    rw [List.getElem?_mapIdx, List.getElem?_eq_getElem hi]
    simp only [Option.map_some]
    rw [if_pos (by omega)]
  · intro i hi
    rw [List.getElem?_mapIdx]
    cases cs[i]? with
    | none => rfl
    | some c => simp only [Option.map_some]; rw [if_neg (by omega)]

theorem setEqsTo_spec {cs : List (LinConstraint (ZMod q))} {K e f} (h : Pair cs K e f)
    (e' : Elt (ZMod q) 2) :
    ∃ out, setEqsTo cs e' = .ok out ∧ Pair out K e' f ∧ Beyond cs out := by
  have hl := h.length
  unfold setEqsTo
  rw [if_neg (by omega)]
  refine ⟨_, rfl, ?_, by simp, ?_⟩
  · intro i
    obtain ⟨c, h1, h2, h3, h4, h5⟩ := h i
    refine ⟨{ c with equalsTo := e'.c i }, ?_, h2, h3, rfl, h5⟩
    rw [List.getElem?_mapIdx, h1, Option.map_some, if_pos i.2, Elt.coeff_fin]
  · intro i hi
    rw [List.getElem?_mapIdx]
    cases cs[i]? with
    | none => rfl
    | some c => simp only [Option.map_some]; rw [if_neg (by omega)]

theorem expandElt_pair {cs : List (LinConstraint (ZMod q))} {K e f} (h : Pair cs K e f) (idx : ℕ)
    (a : Elt (ZMod q) 2) :
    ∃ out, expandElt cs idx a = .ok out ∧
      Pair out (fun k => K k ∨ (idx ≤ k ∧ k < idx + 2)) e (fun x => f x + a * blk 2 x idx) ∧
      Beyond cs out := by
  have hl := h.length
  unfold expandElt
  rw [if_neg (by omega)]
  refine ⟨_, rfl, ?_, by simp, ?_⟩
  · intro i
    obtain ⟨c, h1, h2, h3, h4, h5⟩ := h i
    refine ⟨expandRow a idx i.val c, ?_, foldl_sorted _ _ _ _ h2, ?_, ?_, ?_⟩
    · rw [List.getElem?_mapIdx, h1, Option.map_some, if_pos i.2]
    · intro k hk
      unfold expandRow at hk
      rcases foldl_keys _ (fun j => idx + j) _ _ _ hk with ⟨j, hj, rfl⟩ | hk
      · have := List.mem_range.1 hj; right; omega
      · exact Or.inl (h3 k hk)
    · rw [← h4]; exact foldl_equalsTo _ _ _ _
    · intro x; rw [linLhs_expandRow, h5]; rfl
  · intro i hi
    rw [List.getElem?_mapIdx]
    cases cs[i]? with
    | none => rfl
    | some c => simp only [Option.map_some]; rw [if_neg (by omega)]

theorem expandLoop_pair (v : EVec q 2) : ∀ {cs : List (LinConstraint (ZMod q))} {K e f} (_ : Pair cs K e f)
    (idx : ℕ), ∃ out, expandLoop cs idx v = .ok out ∧
      Pair out (fun k => K k ∨ (idx ≤ k ∧ k < idx + 2 * v.length)) e (fun x => f x + dotBlk v x idx) ∧
      Beyond cs out := by
  induction v with
  | nil =>
    intro cs K e f h idx
    exact ⟨cs, rfl, h.mono (fun k => Or.inl) rfl (fun x => by simp [dotBlk]), Beyond.refl _⟩
  | cons a v ih =>
    intro cs K e f h idx
    obtain ⟨o1, e1, p1, b1⟩ := expandElt_pair h idx a
    obtain ⟨o2, e2, p2, b2⟩ := ih p1 (idx + 2)
    refine ⟨o2, ?_, p2.mono ?_ rfl ?_, b1.trans b2⟩
    · rw [expandLoop, e1, Res.ok_bind, e2]
    · intro k hk
      simp only [List.length_cons]
      rcases hk with (hk | hk) | hk
      · exact Or.inl hk
      · right; omega
      · right; omega
    · intro x
      simp only [dotBlk]; ring

theorem expand_pair {cs : List (LinConstraint (ZMod q))} {K e f} (h : Pair cs K e f) (idx : ℕ)
    (v : EVec q 2) :
    ∃ out, expandConstraints cs idx v = .ok out ∧
      Pair out (fun k => K k ∨ (idx ≤ k ∧ k < idx + 2 * v.length)) e (fun x => f x + dotBlk v x idx) ∧
      Beyond cs out := by
  unfold expandConstraints
  rw [Props.slice_all, Res.ok_bind]
  exact expandLoop_pair v h idx

theorem make_pair {cs : List (LinConstraint (ZMod q))} {K e f} (h : Pair cs K e f) (idx : ℕ)
    (v : EVec q 2) :
    ∃ out, makeConstraints cs idx v = .ok out ∧
      Pair out (fun k => K k ∨ (idx ≤ k ∧ k < idx + v.length)) e (fun x => f x + dotVar v x idx) ∧
      Beyond cs out := by
  have hl := h.length
  unfold makeConstraints
  rw [if_neg (by omega), Props.slice_all, Res.ok_bind]
  refine ⟨_, rfl, ?_, by simp, ?_⟩
  · intro i
    obtain ⟨c, h1, h2, h3, h4, h5⟩ := h i
    refine ⟨makeRow v idx i.val c, ?_, foldl_sorted _ _ _ _ h2, ?_, ?_, ?_⟩
    · rw [List.getElem?_mapIdx, h1, Option.map_some, if_pos i.2]
    · intro k hk
      unfold makeRow at hk
      rcases foldl_keys _ (fun p : Elt (ZMod q) 2 × ℕ => idx + p.2) _ _ _ hk with ⟨p, hp, rfl⟩ | hk
      · have := List.snd_lt_of_mem_zipIdx hp; right; omega
      · exact Or.inl (h3 k hk)
    · rw [← h4]; exact foldl_equalsTo _ _ _ _
    · intro x
      unfold makeRow
      rw [linLhs_foldl, h5, makeRow_aux v idx 0 i x]; rfl
  · intro i hi
    rw [List.getElem?_mapIdx]
    cases cs[i]? with
    | none => rfl
    | some c => simp only [Option.map_some]; rw [if_neg (by omega)]

/-- The list has changed at most at positions `s` and `s+1`. -/
def Outside (s : ℕ) (cs out : List (LinConstraint (ZMod q))) : Prop :=
  out.length = cs.length ∧ ∀ i, i ≠ s → i ≠ s + 1 → out[i]? = cs[i]?

theorem onSlot_spec {cs : List (LinConstraint (ZMod q))} {s : ℕ} (hs : s + 2 ≤ cs.length)
    {g : List (LinConstraint (ZMod q)) → Res (List (LinConstraint (ZMod q)))} {K e f}
    (h : ∃ out, g (cs.drop s) = .ok out ∧ Pair out K e f ∧ Beyond (cs.drop s) out) :
    ∃ out, onSlot cs s g = .ok out ∧ Pair (out.drop s) K e f ∧ Outside s cs out := by
  obtain ⟨o, h1, h2, h3, h4⟩ := h
  unfold onSlot
  rw [if_neg (by omega), h1, Res.ok_bind]
  have hl : (cs.take s).length = s := by simp; omega
  refine ⟨_, rfl, ?_, ?_, ?_⟩
  · rw [List.drop_left' hl]; exact h2
  · rw [List.length_append, h3, hl]; simp; omega
  · intro i h5 h6
    by_cases hi : i < s
    · rw [List.getElem?_append_left (by omega), List.getElem?_take, if_pos hi]
    · rw [List.getElem?_append_right (by omega), hl, h4 _ (by omega), List.getElem?_drop]
      congr 1; omega

theorem Pair.other {s t : ℕ} {cs out : List (LinConstraint (ZMod q))} {K e f}
    (h : Pair (cs.drop t) K e f) (ho : Outside s cs out) (hst : s + 2 ≤ t ∨ t + 2 ≤ s) :
    Pair (out.drop t) K e f := by
  intro i
  obtain ⟨c, h1, h2⟩ := h i
  refine ⟨c, ?_, h2⟩
  rw [List.getElem?_drop] at h1 ⊢
  rw [ho.2 _ (by omega) (by omega), h1]

/-- The two constraints hold together iff the ring equation holds. -/
theorem Pair.sat {s : ℕ} {cs : List (LinConstraint (ZMod q))} {K e f} (h : Pair (cs.drop s) K e f)
    (x : ℕ → ZMod q) :
    (∀ i, i = s ∨ i = s + 1 → ∀ c, cs[i]? = some c → LinSat c x) ↔ f x = e := by
  constructor
  · intro hs
    apply Elt.ext
    funext i
    obtain ⟨c, h1, h2, h3, h4, h5⟩ := h i
    rw [List.getElem?_drop] at h1
    have := hs (s + i) (by omega) c h1
    rw [← h5, ← h4]; exact this
  · rintro rfl i hi c hc
    have : ∃ j : Fin 2, i = s + j := by
      rcases hi with rfl | rfl
      · exact ⟨0, rfl⟩
      · exact ⟨1, rfl⟩
    obtain ⟨j, rfl⟩ := this
    obtain ⟨c', h1, h2, h3, h4, h5⟩ := h j
    rw [List.getElem?_drop, hc] at h1
    obtain rfl := Option.some.inj h1
    show linLhs c x = _
    rw [h5, h4]

end
end Verif
