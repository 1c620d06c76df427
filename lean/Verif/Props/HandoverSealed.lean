/-
C85, over a public channel: a shared secret survives any number of handovers in which the dealings are
encrypted to the next committee.
-/
import Verif.Props.Handover
import Verif.Props.RunExists

namespace Verif.Props
open Verif Verif.Spec Verif.Regev Polynomial

section

theorem mapRes_congr {α β : Type} {f g : α → Res β} {l : List α} (h : ∀ a ∈ l, f a = g a) :
    mapRes f l = mapRes g l := by
  induction l with
  | nil => rfl
  | cons a l ih =>
    unfold mapRes
    rw [h a List.mem_cons_self, ih fun b hb => h b (List.mem_cons_of_mem _ hb)]

theorem mapRes_map {α β γ : Type} (f : β → Res γ) (g : α → β) (l : List α) :
    mapRes f (l.map g) = mapRes (fun a => f (g a)) l := by
  induction l with
  | nil => rfl
  | cons a l ih =>
    rw [List.map_cons]
    unfold mapRes
    rw [ih]

/-- A channel as the library sets it up for a committee of `n`: parameters that leave room for the noise (those
of `setParams` do, C35), a new global key, key pairs for all `n` members generated and registered one after
the other (as in main.cpp:80-83), and coins with which `m` encryptions succeed. -/
def GoodChannel (C : Channel Regev.P) (n m : ℕ) : Prop :=
  ∃ (k s1 s2 : ℤ) (crs : ℕ → ℕ → Elt (ZMod Regev.P) 2) (gk0 : GlobalKey Regev.P 2) (keys : ℕ → Rnd × Rnd)
    (ks : List (EVec Regev.P 2 × EVec Regev.P 2)),
    3 * (k * 2) * 2 ^ s1.toNat + 2 ^ s2.toNat ≤ (2 : ℤ) ^ 125 ∧ GlobalKey.new k n s1 s2 crs = .ok gk0 ∧
    genAll keys gk0.enn 0 gk0 = .ok (C.gk, ks) ∧ C.sks = ks.map Prod.fst ∧ ∀ i < m, EncCoins C.gk (C.coins i)

/-- What a channel does with one vector of `n` values: member `j` decrypts entry `j`. -/
theorem channel_delivers {C : Channel Regev.P} {n m : ℕ} (h : GoodChannel C n m) :
    C.gk.enn = n ∧ (∀ j < n, ∃ sk, rd C.sks j = .ok sk) ∧ ∀ i < m, ∀ v : List (ZMod Regev.P), v.length = n →
      ∃ ct w, C.gk.encrypt Regev.delta v (C.coins i).1 (C.coins i).2.1 (C.coins i).2.2 = .ok (ct, w) ∧
        ∀ j (hj : j < v.length), ∃ sk noise, rd C.sks j = .ok sk ∧ C.gk.decrypt Regev.delta sk j ct = .ok (v[j], noise) := by
  obtain ⟨k, s1, s2, crs, gk0, keys, ks, hpar, hnew, hgen, hsk, hcoins⟩ := h
  obtain ⟨hs, hn0, hk, hn, -, -, -⟩ := new_shaped k n s1 s2 crs gk0 hnew
  obtain ⟨pks, a1, a2, a3, a5, a4⟩ := genAll_ok _ _ _ _ _ _ hgen
  have hist := C38_history gk0 hn0 hs.rowsB pks
  have ee : C.gk.enn = gk0.enn := by rw [a1, hist.1]
  have en : C.gk.enn = n := by rw [ee]; exact_mod_cast hn
  have hs' : Shaped C.gk := by rw [a1]; exact addAll_shaped gk0 hs hn0 pks
  have hrd : ∀ j sk noise, ks[j]? = some (sk, noise) → rd C.sks j = .ok sk := by
    intro j sk noise b1
    rw [hsk]
    unfold rd
    rw [List.getElem?_map, b1]
    rfl
  refine ⟨en, fun j hj => ?_, fun i hi v hv => ?_⟩
  · obtain ⟨sk, noise, pk, b1, -, -⟩ := a4 j (by omega)
    exact ⟨sk, hrd j sk noise b1⟩
  obtain ⟨⟨ct, w⟩, henc⟩ := (encrypt_total (delta := Regev.delta) hs' (by rw [hv, en]) (C.coins i)).1 (hcoins i hi)
  refine ⟨ct, w, henc, fun j hj => ?_⟩
  obtain ⟨sk, noise, pk, b1, b2, b3⟩ := a4 j (by omega)
  have hall : registered gk0.kay gk0.enn pks = pks := by
    unfold registered
    rw [List.filter_eq_self.2, List.take_of_length_le (by omega)]
    intro p hp
    obtain ⟨i, hi, rfl⟩ := List.getElem_of_mem hp
    obtain ⟨s, hsj⟩ := a5 i (by omega)
    rw [hist.2.2 i _ (List.getElem?_eq_getElem hi)] at hsj
    by_contra hc
    rw [if_neg (by intro hh; exact hc (by simpa using hh.1))] at hsj
    cases hsj
  rw [a1] at henc
  obtain ⟨noise', hdec, -⟩ := C35_no_failure k n s1 s2 hpar crs gk0 hnew (pks.take j) _ _ sk pk noise b3 pks j
    (by omega) (by rw [hall]; exact b2) _ _ _ _ ct w henc
  refine ⟨sk, noise', hrd j sk noise b1, ?_⟩
  · rw [a1, hdec, List.getD_eq_getElem?_getD, List.getElem?_eq_getElem hj]
    rfl

/-- **C85.** Sending the dealings encrypted changes nothing: over a channel that the library has set up for the
new committee, a handover gives exactly the shares that it gives without encryption. -/
theorem C85_channel (C : Channel Regev.P) (pts : List ℤ) (shares : List (ZMod Regev.P)) (H : Handover (ZMod Regev.P))
    (hC : GoodChannel C H.pts.length (dealings pts shares H).length) :
    sealedHandover Regev.delta C pts shares H = handover pts shares H := by
  obtain ⟨-, hsks, hd⟩ := channel_delivers hC
  unfold sealedHandover handover
  obtain ⟨D, hDD⟩ : ∃ D, D = dealings pts shares H := ⟨_, rfl⟩
  have hlen : ∀ d ∈ D, d.length = H.pts.length + 1 := by
    intro d hm
    rw [hDD] at hm
    obtain ⟨p, -, rfl⟩ := List.mem_map.1 hm
    simp [newSharing]
  simp only
  rw [← hDD] at hd ⊢
  have hct : ∀ i < D.length, ∃ ct, (do
      let d ← rd D i
      let r ← C.gk.encrypt Regev.delta d.tail (C.coins i).1 (C.coins i).2.1 (C.coins i).2.2
      Res.ok r.1) = .ok ct ∧ ∀ j < H.pts.length, ∃ sk noise, rd C.sks j = .ok sk ∧
        C.gk.decrypt Regev.delta sk j ct = .ok ((D.getD i []).getD (j + 1) 0, noise) := by
    intro i hi
    have hl := hlen _ (List.getElem_mem hi)
    obtain ⟨ct, w, h1, h2⟩ := hd i hi (D[i]).tail (by simp [hl])
    refine ⟨ct, ?_, fun j hj => ?_⟩
    · unfold rd
      rw [List.getElem?_eq_getElem hi]
      simp only [Res.ok_bind, h1]
    · obtain ⟨sk, noise, h3, h4⟩ := h2 j (by simp [hl, hj])
      refine ⟨sk, noise, h3, ?_⟩
      rw [h4, List.getElem_tail, List.getD_eq_getElem?_getD, List.getD_eq_getElem?_getD,
        List.getElem?_eq_getElem hi, Option.getD_some, List.getElem?_eq_getElem (by omega)]
      rfl
  choose! ct hct1 hct2 using hct
  rw [mapRes_ok (g := ct) fun i hi => hct1 i (List.mem_range.1 hi), Res.ok_bind]
  apply mapRes_congr
  intro j hj
  have hj := List.mem_range.1 hj
  unfold newShare
  obtain ⟨sk, hsk⟩ := hsks j hj
  rw [hsk, Res.ok_bind]
  rw [mapRes_ok (g := fun d => d.getD (j + 1) 0) (l := D) (by
    intro d hd
    have hl : j + 1 < d.length := by rw [hlen d hd]; omega
    unfold rd
    rw [List.getElem?_eq_getElem hl, List.getD_eq_getElem?_getD, List.getElem?_eq_getElem hl]
    rfl), Res.ok_bind]
  have : mapRes (fun c => do
      let r ← C.gk.decrypt Regev.delta sk j c
      Res.ok r.1) ((List.range D.length).map ct) = .ok (D.map fun d => d.getD (j + 1) 0) := by
    rw [mapRes_map, mapRes_ok (g := fun i => (D.getD i []).getD (j + 1) 0) (by
      intro i hi
      obtain ⟨sk', noise, h1, h2⟩ := hct2 i (List.mem_range.1 hi) j hj
      rw [hsk] at h1
      obtain rfl := Res.ok.inj h1
      rw [h2, Res.ok_bind])]
    congr 1
    apply List.ext_getElem
    · simp
    · intro i h1 h2
      have hi : i < D.length := by simpa using h2
      simp [List.getD_eq_getElem?_getD, hi]
  rw [this, Res.ok_bind]

/-- **C85.** The whole life of a secret: it is shared, then handed over any number of times, each time encrypted
with keys of the next committee; every step succeeds, and in the end any set of members as large as the last
threshold reconstructs it. -/
theorem C85_sealed (t : ℕ) (pts : List ℤ) (hg : GoodPoints (ZMod Regev.P) pts) (rs : List (ZMod Regev.P))
    (hrs : rs.length + 1 = t) (s : ZMod Regev.P) (Hs : List (Channel Regev.P × Handover (ZMod Regev.P)))
    (hH : Allowed t pts (Hs.map Prod.snd))
    (hC : ∀ p ∈ Hs, GoodChannel p.1 p.2.pts.length p.2.dealers.length) :
    ∃ shares, sealedHandovers Regev.delta pts (newSharing pts rs s).tail Hs = .ok shares ∧
      ∀ sub, sub.Sublist (lastPts pts (Hs.map Prod.snd)) → lastThr t (Hs.map Prod.snd) ≤ sub.length →
        getSecret (sharesFor (lastPts pts (Hs.map Prod.snd)) shares sub) sub = .ok s := by
  have key : ∀ (Hs : List (Channel Regev.P × Handover (ZMod Regev.P))) (t : ℕ) (pts : List ℤ)
      (shares : List (ZMod Regev.P)), ValidSharing t pts (s :: shares) → GoodPoints (ZMod Regev.P) pts →
      Allowed t pts (Hs.map Prod.snd) → (∀ p ∈ Hs, GoodChannel p.1 p.2.pts.length p.2.dealers.length) →
      sealedHandovers Regev.delta pts shares Hs = handovers pts shares (Hs.map Prod.snd) := by
    intro Hs
    induction Hs with
    | nil => intros; rfl
    | cons p Hs ih =>
      obtain ⟨C, H⟩ := p
      rintro t pts shares hv hg ⟨h1, h2, h3, h4, h5⟩ hC
      have hlen : (dealings pts shares H).length = H.dealers.length := by
        obtain ⟨p, hp, hsh⟩ := valid_poly hv
        obtain ⟨-, rfl⟩ := List.cons.inj hsh
        rw [dealings_map _ H h1 hg.nodup, List.length_map]
      have hc := hC _ List.mem_cons_self
      simp only at hc h1 h2 h3 h4 h5
      obtain ⟨sh1, e1, v1⟩ := C85_handover t pts s shares hv hg H h1 h2 h4
      rw [List.map_cons, sealedHandovers, handovers, C85_channel C pts shares H (by rw [hlen]; exact hc), e1,
        Res.ok_bind, Res.ok_bind]
      exact ih H.thr H.pts sh1 v1 h3 h5 fun p hp => hC p (List.mem_cons_of_mem _ hp)
  obtain ⟨h1, h2⟩ := C23_newSharing_valid pts rs s
  have h3 : newSharing pts rs s = s :: (newSharing pts rs s).tail := (List.cons_head?_tail h2).symm
  rw [hrs, h3] at h1
  obtain ⟨sh, e, -, r⟩ := C85_handovers t pts hg rs hrs s _ hH
  exact ⟨sh, by rw [key Hs t pts _ h1 hg hH hC]; exact e, r⟩

/-- For every number of parties from 5 there is a channel with the parameters that the program chooses. -/
theorem channel_exists (n : ℕ) (h5 : 5 ≤ n) (hn : n < 2 ^ 30) (m : ℕ) : ∃ C, GoodChannel C n m := by
  obtain ⟨gk0, hnew, -, hs, -⟩ := standard_exists n h5 hn fun i j => ⟨fun k => (i + 3 * j + k : ℕ)⟩
  obtain ⟨-, -, -, hpar⟩ := C35_setParams n (by omega) hn
  obtain ⟨-, hn0, -⟩ := new_shaped _ _ _ _ _ _ hnew
  obtain ⟨ht0, hte, hk0, he0⟩ := new_tee hnew
  have hsig : 0 < gk0.sigmaEnc1 ∧ 0 < gk0.sigmaEnc2 := by
    obtain ⟨-, -, -, -, e1, e2, -⟩ := new_shaped _ _ _ _ _ _ hnew
    unfold GlobalKey.new at hnew
    split at hnew
    · cases hnew
    · omega
  have hco := unit_coinsOk hk0 he0 hsig.1 hsig.2
  obtain ⟨⟨gk, ks⟩, h1⟩ := (genAll_total (unitCoins Regev.P).keys gk0.enn 0 gk0 hs (by omega)).1
    fun j hj => by rw [zero_add]; exact hco.1 j hj
  obtain ⟨pks, a1, -⟩ := genAll_ok _ _ _ _ _ _ h1
  have hist := C38_history gk0 hn0 hs.rowsB pks
  refine ⟨⟨gk, ks.map Prod.fst, fun _ => (unitRnd, unitRnd, unitRnd)⟩, _, _, _, _, gk0, _, ks, hpar, hnew, h1, rfl, ?_⟩
  intro i _
  have := hco.2.2
  unfold EncCoins at this ⊢
  simp only
  rw [show gk.kay = gk0.kay by rw [a1, hist.1], show gk.enn = gk0.enn by rw [a1, hist.1],
    show gk.sigmaEnc1 = gk0.sigmaEnc1 by rw [a1, hist.1], show gk.sigmaEnc2 = gk0.sigmaEnc2 by rw [a1, hist.1]]
  exact this

/-- A history with a channel: the points of `n` parties, `n` dealers, threshold `n`. -/
example (n : ℕ) (h5 : 5 ≤ n) (hn : n < 2 ^ 30) : ∃ Hs : List (Channel Regev.P × Handover (ZMod Regev.P)),
    Hs.length = 1 ∧ Allowed n (interval 1 ((n : ℤ) + 1)) (Hs.map Prod.snd) ∧
      ∀ p ∈ Hs, GoodChannel p.1 p.2.pts.length p.2.dealers.length := by
  have hl : (interval 1 ((n : ℤ) + 1)).length = n := by rw [interval_get]; simp
  obtain ⟨C, hC⟩ := channel_exists n h5 hn n
  refine ⟨[(C, ⟨interval 1 ((n : ℤ) + 1), interval 1 ((n : ℤ) + 1), 2, fun x => [(x : ZMod Regev.P)]⟩)], rfl, ⟨List.Sublist.refl _, hl.ge, ?_, by simp, trivial⟩, ?_⟩
  · refine interval_good n ?_ (by omega)
    have : 2 ^ 30 < Regev.P := by unfold Regev.P; norm_num
    omega
  · intro p hp
    obtain rfl := List.mem_singleton.1 hp
    simp only [hl]
    exact hC

end
end Verif.Props
