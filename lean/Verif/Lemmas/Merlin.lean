import Verif.Spec.Merlin
import Mathlib.Data.List.Induction
import Mathlib.Data.List.Basic
import Mathlib.Tactic.Ring

namespace Verif.Merlin
open Verif Verif.Spec

/-! ### Injectivity of the framing -/

def view (t : Trace) : List Block := t.blocks ++ [(t.cur, t.pb)]

/-- The trace is `B`, then a block that begins with `c` and has begin mark `p`, and the cells
after `c` are `L`. -/
def Ext (B : List Block) (c : List Cell) (p : Nat) (L : List Cell) (t : Trace) : Prop :=
  ∃ (x1 : List Cell) (xs : List (List Cell)),
    view t = B ++ (c ++ x1, p) :: xs.map (fun x => (x, 0)) ∧ x1 ++ xs.flatten = L

theorem snoc_inj {α : Type} {a b : List α} {x y : α} (h : a ++ [x] = b ++ [y]) : a = b ∧ x = y := by
  have := List.append_inj' h rfl
  exact ⟨this.1, by simpa using this.2⟩

theorem Ext.close {B c p L t} (h : Ext B c p L t) : Ext B c p L t.close := by
  obtain ⟨x1, xs, h, hL⟩ := h
  refine ⟨x1, xs ++ [[]], ?_, by simp [← hL]⟩
  unfold view Trace.close
  simp only
  unfold view at h
  rw [h]; simp

theorem Ext.push {B c p L t} (x : Cell) (h : Ext B c p L t) :
    Ext B c p (L ++ [x]) { t with cur := t.cur ++ [x] } := by
  obtain ⟨x1, xs, h, hL⟩ := h
  rcases List.eq_nil_or_concat xs with rfl | ⟨ys, y, rfl⟩
  · simp only [List.map_nil] at h
    unfold view at h
    obtain ⟨h1, h2⟩ := snoc_inj h
    simp only [Prod.mk.injEq] at h2
    refine ⟨x1 ++ [x], [], ?_, by simp [← hL]⟩
    unfold view
    simp [h1, h2.1, h2.2]
  · rw [List.concat_eq_append, List.map_append, ← List.cons_append, ← List.append_assoc] at h
    unfold view at h
    obtain ⟨h1, h2⟩ := snoc_inj h
    simp only [Prod.mk.injEq] at h2
    refine ⟨x1, ys ++ [y ++ [x]], ?_, by simp [← hL]⟩
    unfold view
    simp [h1, h2.1, h2.2]

theorem Ext.put {B c p L t} (x : Cell) (h : Ext B c p L t) : Ext B c p (L ++ [x]) (t.put x) := by
  unfold Trace.put
  simp only
  split
  · exact (h.push x).close
  · exact h.push x

theorem Ext.putAll {B c p L t} (xs : List Cell) (h : Ext B c p L t) :
    Ext B c p (L ++ xs) (xs.foldl Trace.put t) := by
  induction xs generalizing L t with
  | nil => simpa using h
  | cons x xs ih =>
    have := ih (h.put x)
    simpa using this

theorem op_ext (t : Trace) (o : SOp) :
    Ext t.blocks t.cur (t.cur.length + 1) (.xor (UInt8.ofNat t.pb) :: .xor o.flags :: o.cells) (t.op o) := by
  have h0 : Ext t.blocks t.cur (t.cur.length + 1) [] { t with pb := t.cur.length + 1 } :=
    ⟨[], [], by simp [view], rfl⟩
  have h1 := (h0.put (.xor (UInt8.ofNat t.pb))).put (.xor o.flags)
  have h2 : Ext t.blocks t.cur (t.cur.length + 1) ([] ++ [.xor (UInt8.ofNat t.pb)] ++ [.xor o.flags])
      (t.begin o.flags) := by
    unfold Trace.begin
    simp only
    split
    · exact h1.close
    · exact h1
  have h3 := h2.putAll o.cells
  simpa [Trace.op] using h3

theorem split_unique {α : Type} (P : α → Prop) {A A' Z Z' : List α} {a a' : α}
    (h : A ++ a :: Z = A' ++ a' :: Z') (ha : P a) (ha' : P a') (hZ : ∀ z ∈ Z, ¬ P z)
    (hZ' : ∀ z ∈ Z', ¬ P z) : A = A' ∧ a = a' ∧ Z = Z' := by
  rcases List.append_eq_append_iff.1 h with ⟨C, h1, h2⟩ | ⟨C, h1, h2⟩
  · cases C with
    | nil => simp at h1 h2; exact ⟨h1.symm, h2.1, h2.2⟩
    | cons x C =>
      simp only [List.cons_append, List.cons.injEq] at h2
      exact absurd ha' (hZ a' (by rw [h2.2]; simp))
  · cases C with
    | nil => simp at h1 h2; exact ⟨h1, h2.1.symm, h2.2.symm⟩
    | cons x C =>
      simp only [List.cons_append, List.cons.injEq] at h2
      exact absurd ha (hZ' a (by rw [h2.2]; simp))

/-- The invariant of traces: less than a full block, and the begin mark fits. -/
def TInv (t : Trace) : Prop := t.cur.length < 166 ∧ t.pb ≤ 166

theorem TInv.close {t : Trace} : TInv t.close := by simp [TInv, Trace.close]

theorem TInv.put {t : Trace} (x : Cell) (h : TInv t) : TInv (t.put x) := by
  unfold Trace.put
  simp only
  split
  · exact TInv.close
  · rename_i hl
    simp only [List.length_append, List.length_cons, List.length_nil] at hl
    refine ⟨?_, h.2⟩
    simp only [List.length_append, List.length_cons, List.length_nil]
    have := h.1
    omega

theorem TInv.putAll {t : Trace} (xs : List Cell) (h : TInv t) : TInv (xs.foldl Trace.put t) := by
  induction xs generalizing t with
  | nil => exact h
  | cons x xs ih => exact ih (h.put x)

theorem TInv.begin {t : Trace} (f : UInt8) (h : TInv t) : TInv (t.begin f) := by
  unfold Trace.begin
  simp only
  split
  · exact TInv.close
  · refine TInv.put _ (TInv.put _ ⟨h.1, ?_⟩)
    have := h.1
    show t.cur.length + 1 ≤ 166
    omega

theorem TInv.op {t : Trace} (o : SOp) (h : TInv t) : TInv (t.op o) := TInv.putAll _ (h.begin _)

theorem TInv.ops {t : Trace} (os : List SOp) (h : TInv t) : TInv (os.foldl Trace.op t) := by
  induction os generalizing t with
  | nil => exact h
  | cons o os ih => exact ih (h.op o)

theorem op_inj {t t' : Trace} {o o' : SOp} (h : TInv t) (h' : TInv t') (he : t.op o = t'.op o') :
    t = t' ∧ o = o' := by
  obtain ⟨x1, xs, hv, hL⟩ := op_ext t o
  obtain ⟨x1', xs', hv', hL'⟩ := op_ext t' o'
  rw [he, hv'] at hv
  have hz : ∀ (xs : List (List Cell)), ∀ z ∈ xs.map (fun x => ((x, 0) : Block)), ¬ (z.2 ≠ 0) := by
    intro xs z hz
    obtain ⟨y, -, rfl⟩ := List.mem_map.1 hz
    simp
  obtain ⟨hB, hc, hx⟩ := split_unique (fun b : Block => b.2 ≠ 0) hv.symm (by simp) (by simp) (hz xs) (hz xs')
  simp only [Prod.mk.injEq, Nat.add_right_cancel_iff] at hc
  obtain ⟨hc, hx1⟩ := List.append_inj hc.1 hc.2
  have hxs : xs = xs' := by
    have := congrArg (List.map Prod.fst) hx
    simpa [Function.comp_def] using this
  rw [hx1, hxs, hL'] at hL
  simp only [List.cons.injEq, Cell.xor.injEq] at hL
  obtain ⟨hpb, hf, hcl⟩ := hL
  have hpb' : t.pb = t'.pb := by
    have := congrArg UInt8.toNat hpb
    have a := h.2
    have b := h'.2
    simp at this
    omega
  refine ⟨?_, ?_⟩
  · cases t; cases t'; simp_all
  · cases o; cases o'; simp_all

theorem op_ne_empty {t : Trace} {o : SOp} : t.op o ≠ ⟨[], [], 0⟩ := by
  intro h
  obtain ⟨x1, xs, hv, -⟩ := op_ext t o
  rw [h] at hv
  unfold view at hv
  simp only [List.nil_append] at hv
  have : ((t.cur ++ x1, t.cur.length + 1) : Block) ∈ [(([] : List Cell), 0)] := by rw [hv]; simp
  simp at this

theorem traceOf_inj {os os' : List SOp} (h : traceOf os = traceOf os') : os = os' := by
  have h0 : TInv ⟨[], [], 0⟩ := by simp [TInv]
  induction os using List.reverseRecOn generalizing os' with
  | nil =>
    rcases List.eq_nil_or_concat os' with rfl | ⟨ys, y, rfl⟩
    · rfl
    · exfalso
      rw [traceOf, traceOf, List.concat_eq_append, List.foldl_append] at h
      exact op_ne_empty h.symm
  | append_singleton os o ih =>
    rcases List.eq_nil_or_concat os' with rfl | ⟨ys, y, rfl⟩
    · exfalso
      rw [traceOf, traceOf, List.foldl_append] at h
      exact op_ne_empty h
    · rw [List.concat_eq_append] at h ⊢
      rw [traceOf, traceOf, List.foldl_append, List.foldl_append] at h
      obtain ⟨h1, h2⟩ := op_inj (h0.ops os) (h0.ops ys) h
      rw [ih h1, h2]

theorem le4_length (n : Nat) : (le4 n).length = 4 := by simp [le4, bytesFromIntLoop]

theorem map_xor_inj {a b : Bytes} (h : a.map Cell.xor = b.map Cell.xor) : a = b :=
  List.map_injective_iff.2 (fun _ _ h => by simpa using h) h

theorem sops_inj (a b : List TOp) (h : a.flatMap TOp.sops = b.flatMap TOp.sops) : a = b := by
  induction a generalizing b with
  | nil =>
    cases b with
    | nil => rfl
    | cons y b => cases y <;> simp [TOp.sops] at h
  | cons x a ih =>
    cases b with
    | nil => cases x <;> simp [TOp.sops] at h
    | cons y b =>
      cases x with
      | commit l m =>
        cases y with
        | commit l' m' =>
          simp only [List.flatMap_cons, TOp.sops, List.cons_append, List.nil_append, List.cons.injEq,
            SOp.mk.injEq, true_and] at h
          obtain ⟨h1, h2, h3⟩ := h
          have hm := map_xor_inj h2
          have hl := List.append_inj' (map_xor_inj h1) (by rw [le4_length, le4_length])
          rw [hl.1, hm, ih b h3]
        | challenge l' n' =>
          simp [TOp.sops] at h
      | challenge l n =>
        cases y with
        | commit l' m' => simp [TOp.sops] at h
        | challenge l' n' =>
          simp only [List.flatMap_cons, TOp.sops, List.cons_append, List.nil_append, List.cons.injEq,
            SOp.mk.injEq, true_and] at h
          obtain ⟨h1, h2, h3⟩ := h
          have hn : n = n' := by simpa using congrArg List.length h2
          have hl := List.append_inj' (map_xor_inj h1) (by rw [le4_length, le4_length])
          rw [hl.1, hn, ih b h3]

/-! ### The code computes the sponge of the trace -/

theorem foldl_length {α β : Type} (f : List α → β → List α) (hf : ∀ a x, (f a x).length = a.length)
    (l : List β) (a : List α) : (l.foldl f a).length = a.length := by
  induction l generalizing a with
  | nil => rfl
  | cons x l ih => rw [List.foldl_cons, ih, hf]

theorem thetaA_length (a b : List UInt64) : (thetaA a b).length = a.length := by
  unfold thetaA
  apply foldl_length
  intro a x
  apply foldl_length
  intro a y
  rw [List.length_set]

theorem chi_length (a : List UInt64) : (chi a).length = a.length := by
  unfold chi
  apply foldl_length
  intro a y
  apply foldl_length
  intro a x
  rw [List.length_set]

theorem rhoPi_length (a : List UInt64) : (rhoPi a).1.length = a.length := by
  have : ∀ (l : List Nat) (p : List UInt64 × UInt64), (l.foldl (fun (p : List UInt64 × UInt64) x =>
      (p.1.set (pi.getD x 0) (rol p.2 (rho.getD x 0)), ln p.1 (pi.getD x 0))) p).1.length = p.1.length := by
    intro l
    induction l with
    | nil => intro p; rfl
    | cons x l ih => intro p; rw [List.foldl_cons, ih, List.length_set]
  unfold rhoPi
  exact this _ _

theorem round_length (a : List UInt64) (i : Nat) : (round a i).length = a.length := by
  unfold round iota
  rw [List.length_set, chi_length, rhoPi_length, thetaA_length]

theorem keccakLanes_length (a : List UInt64) : (keccakLanes a).length = a.length := by
  unfold keccakLanes
  exact foldl_length _ round_length _ _

theorem keccakf_length (st : Bytes) : (keccakf st).length = 200 := by
  unfold keccakf
  have h : (keccakLanes (lanes st)).length = 25 := by
    rw [keccakLanes_length]; simp only [lanes, List.length_map, List.length_range]
  have : ∀ l : List UInt64, (l.flatMap laneBytes).length = 8 * l.length := by
    intro l
    induction l with
    | nil => rfl
    | cons x l ih => rw [List.flatMap_cons, List.length_append, ih]; simp [laneBytes]; omega
  rw [this, h]

variable {kf : Bytes → Bytes} (hk : ∀ st, (kf st).length = 200) {s0 : Bytes}

theorem applyCells_length (cs : List Cell) (st : Bytes) : (applyCells cs st).length = st.length := by
  induction cs generalizing st with
  | nil => cases st <;> rfl
  | cons c cs ih => cases st with
    | nil => rfl
    | cons x st => simp [applyCells, ih]

theorem applyCells_nil (st : Bytes) : applyCells [] st = st := by cases st <;> rfl

theorem applyCells_snoc (cs : List Cell) (c : Cell) (st : Bytes) (h : cs.length < st.length) :
    applyCells (cs ++ [c]) st =
      (applyCells cs st).set cs.length (c.on ((applyCells cs st).getD cs.length 0)) := by
  induction cs generalizing st with
  | nil => cases st with
    | nil => simp at h
    | cons x st => cases st <;> simp [applyCells]
  | cons d cs ih => cases st with
    | nil => simp at h
    | cons x st => simp [applyCells, ih st (by simpa using h)]

include hk in
theorem blocks_length (s : Bytes) (hs : s.length = 200) (bs : List Block) :
    (bs.foldl (spongeBlock kf) s).length = 200 := by
  induction bs generalizing s with
  | nil => exact hs
  | cons b bs ih => exact ih _ (by unfold spongeBlock; exact hk _)

include hk in
theorem sponge_length (s : Bytes) (hs : s.length = 200) (t : Trace) : (sponge kf s t).length = 200 := by
  unfold sponge; rw [applyCells_length, blocks_length hk s hs]

/-- The concrete state stands for the trace. -/
structure Rel (kf : Bytes → Bytes) (s0 : Bytes) (s : Strobe) (t : Trace) : Prop where
  st : s.st = sponge kf s0 t
  pos : s.pos = t.cur.length
  pb : s.posBegin = t.pb

theorem upd_ok {st : Bytes} {i : Nat} (f : UInt8 → UInt8) (h : i < st.length) :
    upd st i f = .ok (st.set i (f (st.getD i 0))) := by
  unfold upd
  rw [rd_ok h, Res.ok_bind, List.getD_eq_getElem?_getD, List.getElem?_eq_getElem h]; rfl

include hk in
theorem runF_rel (hs0 : s0.length = 200) {s : Strobe} {t : Trace} (h : Rel kf s0 s t)
    (hl : t.cur.length ≤ 166) :
    ∃ s', runF kf s = .ok s' ∧ Rel kf s0 s' t.close ∧ s'.curFlags = s.curFlags := by
  have hlen : s.st.length = 200 := by rw [h.st]; exact sponge_length hk s0 hs0 t
  unfold runF
  rw [upd_ok _ (by rw [hlen, h.pos]; omega), Res.ok_bind,
    upd_ok _ (by rw [List.length_set, hlen, h.pos]; omega), Res.ok_bind,
    upd_ok _ (by rw [List.length_set, List.length_set, hlen]; unfold R; omega), Res.ok_bind]
  refine ⟨_, rfl, ⟨?_, rfl, rfl⟩, rfl⟩
  have e : sponge kf s0 t.close = kf (xorAt (xorAt (xorAt (sponge kf s0 t) t.cur.length
      (UInt8.ofNat t.pb)) (t.cur.length + 1) 0x04) (R + 1) 0x80) := by
    unfold sponge Trace.close
    rw [List.foldl_append]
    rfl
  rw [e]
  refine congrArg kf ?_
  rw [h.st, h.pos, h.pb]
  rfl

include hk in
theorem put_rel (hs0 : s0.length = 200) {s : Strobe} {t : Trace} (h : Rel kf s0 s t) (hi : TInv t)
    (c : Cell) :
    ∃ st', rd s.st s.pos = .ok ((sponge kf s0 t).getD t.cur.length 0) ∧
      upd s.st s.pos c.on = .ok st' ∧ ∃ s',
      bump kf { s with st := st' } = .ok s' ∧ Rel kf s0 s' (t.put c) ∧ s'.curFlags = s.curFlags := by
  have hlen : s.st.length = 200 := by rw [h.st]; exact sponge_length hk s0 hs0 t
  have hp : s.pos < s.st.length := by rw [hlen, h.pos]; have := hi.1; omega
  refine ⟨_, ?_, upd_ok _ hp, ?_⟩
  · rw [rd_ok hp, ← h.st, ← h.pos, List.getD_eq_getElem?_getD, List.getElem?_eq_getElem hp]; rfl
  have hi1 := hi.1
  have hbl : (t.blocks.foldl (spongeBlock kf) s0).length = 200 := blocks_length hk s0 hs0 _
  have hpos : (s.pos + 1) % 256 = (t.cur ++ [c]).length := by
    rw [h.pos, List.length_append, List.length_cons, List.length_nil]; omega
  have hst : s.st.set s.pos (c.on (s.st.getD s.pos 0)) = sponge kf s0 { t with cur := t.cur ++ [c] } := by
    unfold sponge
    simp only
    rw [applyCells_snoc _ _ _ (by rw [hbl]; omega), h.st, h.pos]; rfl
  unfold bump Trace.put
  simp only
  have hR : (R : Nat) = 166 := rfl
  by_cases hf : (t.cur ++ [c]).length = 166
  · rw [if_pos (by rw [hpos, hR]; exact hf), if_pos hf]
    exact runF_rel hk hs0 (t := { t with cur := t.cur ++ [c] }) ⟨hst, hpos, h.pb⟩ (by simp only; omega)
  · rw [if_neg (by rw [hpos, hR]; exact hf), if_neg hf]
    exact ⟨_, rfl, ⟨hst, hpos, h.pb⟩, rfl⟩

include hk in
theorem absorb_rel (hs0 : s0.length = 200) (ds : Bytes) : ∀ {s : Strobe} {t : Trace}, Rel kf s0 s t → TInv t →
    ∃ s', absorb kf s ds = .ok s' ∧ Rel kf s0 s' ((ds.map Cell.xor).foldl Trace.put t) ∧
      s'.curFlags = s.curFlags := by
  induction ds with
  | nil => intro s t h _; exact ⟨s, rfl, h, rfl⟩
  | cons d ds ih =>
    intro s t h hi
    obtain ⟨st', -, h2, s', h3, h4, h5⟩ := put_rel hk hs0 h hi (.xor d)
    obtain ⟨s'', h6, h7, h8⟩ := ih h4 (hi.put _)
    refine ⟨s'', ?_, by simpa using h7, h8.trans h5⟩
    unfold absorb
    rw [show (fun x : UInt8 => x ^^^ d) = (Cell.xor d).on from rfl, h2, Res.ok_bind, h3, Res.ok_bind, h6]

include hk in
theorem overwrite_rel (hs0 : s0.length = 200) (ds : Bytes) : ∀ {s : Strobe} {t : Trace}, Rel kf s0 s t → TInv t →
    ∃ s', overwrite kf s ds = .ok s' ∧ Rel kf s0 s' ((ds.map Cell.over).foldl Trace.put t) ∧
      s'.curFlags = s.curFlags := by
  induction ds with
  | nil => intro s t h _; exact ⟨s, rfl, h, rfl⟩
  | cons d ds ih =>
    intro s t h hi
    obtain ⟨st', -, h2, s', h3, h4, h5⟩ := put_rel hk hs0 h hi (.over d)
    obtain ⟨s'', h6, h7, h8⟩ := ih h4 (hi.put _)
    refine ⟨s'', ?_, by simpa using h7, h8.trans h5⟩
    unfold overwrite
    rw [show (fun _ : UInt8 => d) = (Cell.over d).on from rfl, h2, Res.ok_bind, h3, Res.ok_bind, h6]

include hk in
theorem squeeze_rel (hs0 : s0.length = 200) (n : Nat) : ∀ {s : Strobe} {t : Trace}, Rel kf s0 s t → TInv t →
    ∃ o s', squeeze kf s n = .ok (o, s') ∧ o = outBytes kf s0 t n ∧
      Rel kf s0 s' ((List.replicate n Cell.out).foldl Trace.put t) ∧ s'.curFlags = s.curFlags := by
  induction n with
  | zero => intro s t h _; exact ⟨[], s, rfl, rfl, h, rfl⟩
  | succ n ih =>
    intro s t h hi
    obtain ⟨st', h1, h2, s', h3, h4, h5⟩ := put_rel hk hs0 h hi .out
    obtain ⟨o, s'', h6, hl, h7, h8⟩ := ih h4 (hi.put _)
    refine ⟨_ :: o, s'', ?_, by rw [hl, outBytes], by simpa [List.replicate_succ] using h7, h8.trans h5⟩
    unfold squeeze
    rw [h1, Res.ok_bind, show (fun _ : UInt8 => (0 : UInt8)) = Cell.out.on from rfl, h2, Res.ok_bind, h3,
      Res.ok_bind, h6, Res.ok_bind]

include hk in
theorem begin_rel (hs0 : s0.length = 200) {s : Strobe} {t : Trace} (h : Rel kf s0 s t) (hi : TInv t)
    (f : Nat) (hf : f = 6 ∨ f = 2 ∨ f = 7) :
    ∃ s', beginOp kf s f false = .ok s' ∧ Rel kf s0 s' (t.begin (UInt8.ofNat f)) ∧ s'.curFlags = f := by
  have hi1 := hi.1
  have hpos : (s.pos + 1) % 256 = t.cur.length + 1 := by rw [h.pos]; omega
  obtain ⟨s', h1, h2, h3⟩ := absorb_rel hk hs0 [UInt8.ofNat s.posBegin, UInt8.ofNat f]
    (s := { s with posBegin := (s.pos + 1) % 256, curFlags := f })
    (t := { t with pb := t.cur.length + 1 })
    ⟨h.st, h.pos, hpos⟩ ⟨hi1, by simp only; omega⟩
  simp only [List.map_cons, List.map_nil, List.foldl_cons, List.foldl_nil, h.pb] at h2
  have hT : ¬ (f &&& FLAG_T ≠ 0) := by rcases hf with rfl | rfl | rfl <;> decide
  unfold beginOp
  simp only [Bool.false_eq_true, if_false]
  rw [if_neg hT, h1, Res.ok_bind]
  unfold Trace.begin
  simp only
  obtain ⟨t', ht'⟩ : ∃ t', t' = (({ t with pb := t.cur.length + 1 } : Trace).put
    (.xor (UInt8.ofNat t.pb))).put (.xor (UInt8.ofNat f)) := ⟨_, rfl⟩
  rw [← ht'] at h2 ⊢
  have hti : TInv t' := by
    rw [ht']; exact TInv.put _ (TInv.put _ ⟨hi1, by simp only; omega⟩)
  have hiff : (f &&& (FLAG_C ||| FLAG_K) ≠ 0 ∧ s'.pos ≠ 0) ↔ (UInt8.ofNat f &&& 36 ≠ 0 ∧ t'.cur ≠ []) := by
    have e1 : f &&& (FLAG_C ||| FLAG_K) ≠ 0 ↔ UInt8.ofNat f &&& 36 ≠ 0 := by
      rcases hf with rfl | rfl | rfl <;> decide
    have e2 : s'.pos ≠ 0 ↔ t'.cur ≠ [] := by
      rw [h2.pos]; simp
    rw [e1, e2]
  by_cases hc : UInt8.ofNat f &&& 36 ≠ 0 ∧ t'.cur ≠ []
  · rw [if_pos (hiff.2 hc), if_pos hc]
    obtain ⟨s'', g1, g2, g3⟩ := runF_rel hk hs0 h2 (by have := hti.1; omega)
    exact ⟨s'', g1, g2, g3.trans h3⟩
  · rw [if_neg (fun h => hc (hiff.1 h)), if_neg hc]
    exact ⟨s', rfl, h2, h3⟩

include hk in
theorem metaAd_rel (hs0 : s0.length = 200) {s : Strobe} {t : Trace} (h : Rel kf s0 s t) (hi : TInv t)
    (d : Bytes) : ∃ s', metaAd kf s d false = .ok s' ∧ Rel kf s0 s' (t.op ⟨6, d.map .xor⟩) ∧ s'.curFlags = 6 := by
  obtain ⟨s', h1, h2, h3⟩ := begin_rel hk hs0 h hi 6 (Or.inl rfl)
  obtain ⟨s'', h4, h5, h6⟩ := absorb_rel hk hs0 d h2 (hi.begin _)
  refine ⟨s'', ?_, h5, h6.trans h3⟩
  unfold metaAd
  rw [show FLAG_C ||| FLAG_A = 6 from rfl, h1, Res.ok_bind, h4]

include hk in
theorem metaAd_more (hs0 : s0.length = 200) {s : Strobe} {t : Trace} (h : Rel kf s0 s t) (hi : TInv t)
    (hf : s.curFlags = 6) (d : Bytes) :
    ∃ s', metaAd kf s d true = .ok s' ∧ Rel kf s0 s' ((d.map Cell.xor).foldl Trace.put t) ∧ s'.curFlags = 6 := by
  obtain ⟨s'', h4, h5, h6⟩ := absorb_rel hk hs0 d h hi
  refine ⟨s'', ?_, h5, h6.trans hf⟩
  unfold metaAd beginOp
  rw [if_pos rfl, if_pos (by rw [hf]; rfl), Res.ok_bind, h4]

include hk in
theorem ad_rel (hs0 : s0.length = 200) {s : Strobe} {t : Trace} (h : Rel kf s0 s t) (hi : TInv t)
    (d : Bytes) : ∃ s', ad kf s d false = .ok s' ∧ Rel kf s0 s' (t.op ⟨2, d.map .xor⟩) ∧ s'.curFlags = 2 := by
  obtain ⟨s', h1, h2, h3⟩ := begin_rel hk hs0 h hi 2 (Or.inr (Or.inl rfl))
  obtain ⟨s'', h4, h5, h6⟩ := absorb_rel hk hs0 d h2 (hi.begin _)
  refine ⟨s'', ?_, h5, h6.trans h3⟩
  unfold ad
  rw [show FLAG_A = 2 from rfl, h1, Res.ok_bind, h4]

include hk in
theorem key_rel (hs0 : s0.length = 200) {s : Strobe} {t : Trace} (h : Rel kf s0 s t) (hi : TInv t)
    (d : Bytes) : ∃ s', key kf s d false = .ok s' ∧ Rel kf s0 s' (t.op ⟨6, d.map .over⟩) ∧ s'.curFlags = 6 := by
  obtain ⟨s', h1, h2, h3⟩ := begin_rel hk hs0 h hi 6 (Or.inl rfl)
  obtain ⟨s'', h4, h5, h6⟩ := overwrite_rel hk hs0 d h2 (hi.begin _)
  refine ⟨s'', ?_, h5, h6.trans h3⟩
  unfold key
  rw [show FLAG_C ||| FLAG_A = 6 from rfl, h1, Res.ok_bind, h4]

include hk in
theorem prf_rel (hs0 : s0.length = 200) {s : Strobe} {t : Trace} (h : Rel kf s0 s t) (hi : TInv t)
    (n : Nat) : ∃ o s', prf kf s n false = .ok (o, s') ∧ o = outBytes kf s0 (t.begin 7) n ∧
      Rel kf s0 s' (t.op ⟨7, List.replicate n .out⟩) ∧ s'.curFlags = 7 := by
  obtain ⟨s', h1, h2, h3⟩ := begin_rel hk hs0 h hi 7 (Or.inr (Or.inr rfl))
  obtain ⟨o, s'', h4, hl, h5, h6⟩ := squeeze_rel hk hs0 n h2 (hi.begin _)
  refine ⟨o, s'', ?_, hl, h5, h6.trans h3⟩
  unfold prf
  rw [show FLAG_I ||| FLAG_A ||| FLAG_C = 7 from rfl, h1, Res.ok_bind, h4]

theorem outBytes_length (t : Trace) (n : Nat) : (outBytes kf s0 t n).length = n := by
  induction n generalizing t with
  | zero => rfl
  | succ n ih => rw [outBytes, List.length_cons, ih]

theorem op_append (t : Trace) (f : UInt8) (a b : List Cell) :
    b.foldl Trace.put (t.op ⟨f, a⟩) = t.op ⟨f, a ++ b⟩ := by
  simp [Trace.op]

include hk in
theorem commit_rel (hs0 : s0.length = 200) {s : Strobe} {t : Trace} (h : Rel kf s0 s t) (hi : TInv t)
    (l m : Bytes) : ∃ s', commitBytes kf s l m = .ok s' ∧
      Rel kf s0 s' ((TOp.commit l m).sops.foldl Trace.op t) ∧ s'.curFlags = 2 := by
  obtain ⟨s1, h1, h2, h3⟩ := metaAd_rel hk hs0 h hi l
  obtain ⟨s2, h4, h5, h6⟩ := metaAd_more hk hs0 h2 (hi.op _) h3 (le4 m.length)
  rw [op_append] at h5
  obtain ⟨s3, h7, h8, h9⟩ := ad_rel hk hs0 h5 (hi.op _) m
  refine ⟨s3, ?_, by simpa [TOp.sops] using h8, h9⟩
  unfold commitBytes
  rw [h1, Res.ok_bind, h4, Res.ok_bind, h7]

include hk in
theorem challenge_rel (hs0 : s0.length = 200) {s : Strobe} {t : Trace} (h : Rel kf s0 s t) (hi : TInv t)
    (l : Bytes) (n : Nat) : ∃ o s', challengeBytes kf s l n = .ok (o, s') ∧
      o = outBytes kf s0 ((t.op ⟨6, (l ++ le4 n).map .xor⟩).begin 7) n ∧
      Rel kf s0 s' ((TOp.challenge l n).sops.foldl Trace.op t) ∧ s'.curFlags = 7 := by
  obtain ⟨s1, h1, h2, h3⟩ := metaAd_rel hk hs0 h hi l
  obtain ⟨s2, h4, h5, h6⟩ := metaAd_more hk hs0 h2 (hi.op _) h3 (le4 n)
  rw [op_append] at h5
  obtain ⟨o, s3, h7, hl, h8, h9⟩ := prf_rel hk hs0 h5 (hi.op _) n
  refine ⟨o, s3, ?_, by rw [hl, List.map_append], by simpa [TOp.sops] using h8, h9⟩
  unfold challengeBytes
  rw [h1, Res.ok_bind, h4, Res.ok_bind, h7]

theorem TInv.foldl {t : Trace} (os : List SOp) (h : TInv t) : TInv (os.foldl Trace.op t) := h.ops os

include hk in
theorem runOps_rel (hs0 : s0.length = 200) (ops : List TOp) : ∀ {s : Strobe} {t : Trace},
    Rel kf s0 s t → TInv t → ∃ s', runOps kf s ops = .ok (challengesOf kf s0 t ops, s') ∧
      Rel kf s0 s' ((ops.flatMap TOp.sops).foldl Trace.op t) := by
  induction ops with
  | nil => intro s t h _; exact ⟨s, rfl, h⟩
  | cons o ops ih =>
    intro s t h hi
    cases o with
    | commit l m =>
      obtain ⟨s1, h1, h2, -⟩ := commit_rel hk hs0 h hi l m
      obtain ⟨s2, h3, h4⟩ := ih h2 (hi.ops _)
      refine ⟨s2, ?_, by simpa [List.flatMap_cons, List.foldl_append] using h4⟩
      rw [runOps, h1, Res.ok_bind, h3, challengesOf]
    | challenge l n =>
      obtain ⟨o, s1, h1, ho, h2, -⟩ := challenge_rel hk hs0 h hi l n
      obtain ⟨s2, h3, h4⟩ := ih h2 (hi.ops _)
      refine ⟨s2, ?_, by simpa [List.flatMap_cons, List.foldl_append] using h4⟩
      rw [runOps, h1, Res.ok_bind]
      simp only
      rw [h3, Res.ok_bind, challengesOf, ho]

include hk in
theorem st0_length : (st0 kf).length = 200 := hk _

include hk in
theorem init_rel (label : Bytes) : ∃ s, transcriptInit kf label = .ok s ∧
    Rel kf (st0 kf) s (traceOf (transcriptOps label [])) ∧ s.curFlags = 2 := by
  have hi0 : TInv ⟨[], [], 0⟩ := by simp [TInv]
  have h0 : Rel kf (st0 kf) { st := kf (initBytes ++ List.replicate 182 0), pos := 0, posBegin := 0, curFlags := 0 }
      ⟨[], [], 0⟩ := ⟨by rw [sponge, List.foldl_nil, applyCells_nil]; rfl, rfl, rfl⟩
  obtain ⟨s1, h1, h2, h3⟩ := metaAd_rel hk (st0_length hk) h0 hi0
    [77, 101, 114, 108, 105, 110, 32, 118, 49, 46, 48]
  obtain ⟨s2, h4, h5, h6⟩ := commit_rel hk (st0_length hk) h2 (hi0.op _) [100, 111, 109, 45, 115, 101, 112] label
  refine ⟨s2, ?_, ?_, h6⟩
  swap
  · rw [traceOf, transcriptOps, List.foldl_cons, List.flatMap_cons, List.flatMap_nil, List.append_nil]
    exact h5
  unfold transcriptInit strobeInit
  rw [h1, Res.ok_bind, h4]

end Verif.Merlin
