import Verif.Props.Aligned
import Verif.Props.Joined

/-!
# Property C107, continued: several classes of common processes, method `cliques`

The positions of the columns of combining processes are known up to a map of columns to positions, one for each pulsar.  When
the columns that common processes share are the same in all pulsars, the labels separate the prior covariance.
-/

set_option linter.unusedSectionVars false

namespace Verif.Combine

open Verif Verif.Kernel

variable {K : Type} [Field K] {H : Type} [DecidableEq H]

/-- The positions of the columns of one signal among the hashes known after it. -/
theorem columns_hashes (hash : Col K → H) (combine : Bool) : ∀ (F : List (Col K)) (hl : List H),
    (columns hash combine F hl hl.length).2.2 = (columns hash combine F hl hl.length).2.1.length ∧
    hl <+: (columns hash combine F hl hl.length).2.1 ∧
    (∀ c ∈ F, hash c ∈ (columns hash combine F hl hl.length).2.1) ∧
    (combine = true → (columns hash combine F hl hl.length).1 =
      F.map fun c => (columns hash combine F hl hl.length).2.1.idxOf (hash c)) := by
  intro F
  induction F with
  | nil => intro hl; exact ⟨rfl, List.prefix_rfl, by simp, fun _ => rfl⟩
  | cons c t ih =>
    intro hl
    by_cases h : combine = true ∧ hash c ∈ hl
    · have e : columns hash combine (c :: t) hl hl.length =
          (hl.idxOf (hash c) :: (columns hash combine t hl hl.length).1, (columns hash combine t hl hl.length).2) := by
        rw [columns, if_pos h]
      obtain ⟨h1, h2, h3, h4⟩ := ih hl
      rw [e]
      refine ⟨h1, h2, fun d hd => ?_, fun hc => ?_⟩
      · rcases List.mem_cons.1 hd with rfl | hd
        · exact h2.subset h.2
        · exact h3 d hd
      · rw [List.map_cons, ← h4 hc]
        congr 1
        obtain ⟨l, hl'⟩ := h2
        simp only
        rw [← hl', List.idxOf_append_of_mem h.2]
    · have e : columns hash combine (c :: t) hl hl.length = (hl.length :: (columns hash combine t (hl ++ [hash c]) (hl ++ [hash c]).length).1,
          (columns hash combine t (hl ++ [hash c]) (hl ++ [hash c]).length).2) := by
        rw [columns, if_neg h, List.length_append]
        rfl
      obtain ⟨h1, h2, h3, h4⟩ := ih (hl ++ [hash c])
      rw [e]
      refine ⟨h1, (List.prefix_append _ _).trans h2, fun d hd => ?_, fun hc => ?_⟩
      · rcases List.mem_cons.1 hd with rfl | hd
        · exact h2.subset (by simp)
        · exact h3 d hd
      · rw [List.map_cons, ← h4 hc]
        congr 1
        have hn : hash c ∉ hl := fun hm => h ⟨hc, hm⟩
        obtain ⟨l, hl'⟩ := h2
        simp only
        rw [← hl', List.idxOf_append_of_mem (by simp), List.idxOf_append_of_notMem hn]
        simp

/-- The positions of all combining signals, when no basis varies: the first position of the hash of the column. -/
theorem combineIdx_hashes (hash : Col K → H) : ∀ (sigs : List (BSig K)) (hl : List H), (∀ s ∈ sigs, s.varying = false) →
    ∃ hl', hl <+: hl' ∧ ∀ x ∈ sigs.zip (combineIdx hash sigs hl hl.length), x.1.combine = true → ∀ F l, x.1.basis = some F → x.2 = some l →
      (l = F.map fun c => hl'.idxOf (hash c)) ∧ ∀ c ∈ F, hash c ∈ hl' := by
  intro sigs
  induction sigs with
  | nil => intro hl _; exact ⟨hl, List.prefix_rfl, by simp⟩
  | cons s t ih =>
    intro hl hv
    have hv' : ∀ s ∈ t, s.varying = false := fun s hs => hv s (by simp [hs])
    cases hb : s.basis with
    | none =>
      obtain ⟨hl', h1, h2⟩ := ih hl hv'
      refine ⟨hl', h1, fun x hx => ?_⟩
      rw [combineIdx, hb] at hx
      rcases List.mem_cons.1 hx with rfl | hx
      · intro _ F l _ h; cases h
      · exact h2 x hx
    | some F =>
      obtain ⟨g1, g2, g3, g4⟩ := columns_hashes hash s.combine F hl
      obtain ⟨hl', h1, h2⟩ := ih (columns hash s.combine F hl hl.length).2.1 hv'
      refine ⟨hl', g2.trans h1, fun x hx => ?_⟩
      rw [combineIdx, hb] at hx
      simp only [if_pos (hv s (by simp))] at hx
      rw [g1] at hx
      rcases List.mem_cons.1 hx with rfl | hx
      · intro hc F' l hF' hl''
        have hF' : s.basis = some F' := hF'
        rw [hb] at hF'
        cases hF'
        cases hl''
        obtain ⟨l, rfl⟩ := h1
        refine ⟨?_, fun c hc => List.mem_append_left _ (g3 c hc)⟩
        rw [g4 hc]
        apply List.map_congr_left
        intro c hc
        rw [List.idxOf_append_of_mem (g3 c hc)]
      · exact h2 x hx

end Verif.Combine

namespace Verif.Joined

open Verif Verif.Likelihood Verif.Noise Verif.Combine Verif.Collect Verif.Joint Matrix
open Verif.Kernel (Kern Arr)
open Verif.PhiInv (toMatrix)
open Verif.PtaPhi (entries phicross PSig Item Klass KlassOk ItemOk CrossOk slices spread pairs pairTerm klassTerm members)
open Verif.Partition (Svd)
open Verif.Orf (Pos orfMatrix)

variable {H : Type} [DecidableEq H]

/-- The common processes share columns in the same way in all pulsars: none has a varying basis, all combine, and where a
column of one is a column of another, so it is in the other pulsars. -/
structure SameCols (ps : List JPsr) : Prop where
  vec : ∀ p ∈ ps, ∀ g ∈ p.gps, g.basis ≠ none → ∃ n v, g.prior = .one n v
  fixed : ∀ p ∈ ps, ∀ g ∈ p.gps, g.varying = false
  combine : ∀ p ∈ ps, ∀ g ∈ p.gps, g.cls ≠ none → g.combine = true
  share : ∀ p ∈ ps, ∀ p' ∈ ps, ∀ c c' g g' h, g ∈ p.gps → g' ∈ p.gps → h ∈ p'.gps → g.basis ≠ none → g'.basis ≠ none → h.basis ≠ none →
    g.cls = some c → g'.cls = some c' → h.cls = some c → ∀ k k' : Nat, k < g.basisAt.length → k' < g'.basisAt.length →
    g.basisAt[k]? = g'.basisAt[k']? → ∃ h' ∈ p'.gps, h'.basis ≠ none ∧ h'.cls = some c' ∧ h'.basisAt[k']? = h.basisAt[k]?

theorem slotsAt_zip (a : Nat) (p : JPsr) (gps : List GSig) (ix : List (Option (List Nat))) (s : Slot) (hs : s ∈ slotsAt a p gps ix) :
    (s.g, some s.idx) ∈ gps.zip ix := by
  obtain ⟨⟨g, o⟩, hx, he⟩ := List.mem_filterMap.1 hs
  obtain ⟨l, hl, rfl⟩ := Option.map_eq_some_iff.1 he
  have hl : o = some l := hl
  subst hl
  exact hx

theorem zip_slotsAt (a : Nat) (p : JPsr) (gps : List GSig) (ix : List (Option (List Nat))) (g : GSig) (l : List Nat)
    (h : (g, some l) ∈ gps.zip ix) : (⟨a, p, g, l⟩ : Slot) ∈ slotsAt a p gps ix :=
  List.mem_filterMap.2 ⟨(g, some l), h, rfl⟩

/-- The positions of a combining process, by a map of the columns of the pulsar to positions that keeps them apart. -/
theorem slot_map (hash : Col ℝ → H) (orf : Nat → Pos → Pos → ℝ) (ps : List JPsr) (h : Apt hash orf ps) (hs : SameCols ps)
    (p : JPsr) (hp : p ∈ ps) : ∃ f : Col ℝ → Nat, ∀ i,
      ∀ s ∈ slotsAt i p p.gps (idxOf hash (p.gps.map (bsig orf p.pos))), s.g.basis ≠ none → s.g.cls ≠ none → s.idx = s.g.basisAt.map f ∧
      ∀ s' ∈ slotsAt i p p.gps (idxOf hash (p.gps.map (bsig orf p.pos))), s'.g.basis ≠ none → s'.g.cls ≠ none →
        ∀ c ∈ s.g.basisAt, ∀ c' ∈ s'.g.basisAt, f c = f c' → c = c' := by
  obtain ⟨hl, -, h2⟩ := combineIdx_hashes hash (p.gps.map (bsig orf p.pos)) [] (by
    intro s hs'
    obtain ⟨g, hg, rfl⟩ := List.mem_map.1 hs'
    exact hs.fixed p hp g hg)
  have hz : ∀ g l, (g, some l) ∈ p.gps.zip (idxOf hash (p.gps.map (bsig orf p.pos))) →
      (bsig orf p.pos g, some l) ∈ (p.gps.map (bsig orf p.pos)).zip (combineIdx hash (p.gps.map (bsig orf p.pos)) [] ([] : List H).length) := by
    intro g l hx
    rw [List.zip_map_left]
    exact List.mem_map.2 ⟨(g, some l), hx, rfl⟩
  have key : ∀ i, ∀ s ∈ slotsAt i p p.gps (idxOf hash (p.gps.map (bsig orf p.pos))), s.g.basis ≠ none → s.g.cls ≠ none →
      ∃ F, s.g ∈ p.gps ∧ s.g.basis = some F ∧ s.g.basisAt = F ∧ (s.idx = F.map fun c => hl.idxOf (hash c)) ∧ ∀ c ∈ F, hash c ∈ hl := by
    intro i s hs' hb hc
    have hx := slotsAt_zip i p _ _ s hs'
    obtain ⟨F, hF⟩ := Option.ne_none_iff_exists'.1 hb
    have hg := (List.of_mem_zip hx).1
    exact ⟨F, hg, hF, (h.ok p hp s.g hg F hF).2.2.1 (hs.fixed p hp s.g hg), h2 _ (hz _ _ hx) (hs.combine p hp _ hg hc) F _ hF rfl⟩
  refine ⟨fun c => hl.idxOf (hash c), fun i s hs' hb hc => ?_⟩
  obtain ⟨F, hg, hF, e, h3, h4⟩ := key i s hs' hb hc
  refine ⟨by rw [e]; exact h3, fun s' hs'' hb' hc' c hcm c' hcm' he => ?_⟩
  obtain ⟨F', hg', hF', e', -, -⟩ := key i s' hs'' hb' hc'
  rw [e] at hcm
  rw [e'] at hcm'
  exact h.hash p hp _ (List.mem_map_of_mem hg) _ (List.mem_map_of_mem hg') F F' hF hF' c hcm c' hcm' ((List.idxOf_inj (h4 c hcm)).1 he)

theorem has_slot (f : GSig → BSig ℝ) (hf : ∀ g, (f g).basis = g.basis) (L : List (Col ℝ)) : ∀ (gps : List GSig) (ix : List (Option (List Nat))),
    AllPoints L (gps.map f) ix → ∀ g ∈ gps, g.basis ≠ none → ∃ l, (g, some l) ∈ gps.zip ix := by
  intro gps
  induction gps with
  | nil => intro ix _ g hg; cases hg
  | cons g' t ih =>
    intro ix h g hg hb
    rw [List.map_cons] at h
    cases h with
    | none hb' ht =>
      rw [hf] at hb'
      rcases List.mem_cons.1 hg with rfl | hg
      · exact absurd hb' hb
      · obtain ⟨l, hl⟩ := ih _ ht g hg hb
        exact ⟨l, by simp [hl]⟩
    | @some _ _ ix l F hb' hp hn ht =>
      rcases List.mem_cons.1 hg with rfl | hg
      · exact ⟨l, by simp⟩
      · obtain ⟨l, hl⟩ := ih _ ht g hg hb
        exact ⟨l, by simp [hl]⟩

theorem klasses_items (hash : Col ℝ → H) (orf : Nat → Pos → Pos → ℝ) (ps : List JPsr) (T : JPsr → Nat → Col ℝ) (Φ : JPsr → Kern ℝ)
    (hF : ∀ p ∈ ps, Facts hash (p.gps.map (bsig orf p.pos)) (T p) (Φ p)) (k : Klass ℝ) (hk : k ∈ klasses hash orf ps) :
    ∃ c, k.cross = cross orf ps c ∧ k.items ≠ [] ∧
      k.items = ((slots hash orf ps).filter fun s => decide (s.g.cls = some c)).map (fun s => ⟨s.a, s.idx⟩) := by
  obtain ⟨kv, hkv, rfl⟩ := List.mem_map.1 hk
  obtain ⟨h1, h2⟩ := List.mem_filter.1 hkv
  refine ⟨kv.1, rfl, ?_, ?_⟩
  · intro h0
    have h0 : kv.2 = [] := h0
    simp [h0] at h2
  · show kv.2 = _
    rw [dict_val hash orf ps kv h1, (members_slots hash orf ps T Φ hF kv.1).1]

/-- A process of a class, with its pulsar. -/
theorem item_slot (hash : Col ℝ → H) (orf : Nat → Pos → Pos → ℝ) (ps : List JPsr) (T : JPsr → Nat → Col ℝ) (Φ : JPsr → Kern ℝ)
    (hF : ∀ p ∈ ps, Facts hash (p.gps.map (bsig orf p.pos)) (T p) (Φ p)) (c : Nat) (x : Item)
    (hx : x ∈ ((slots hash orf ps).filter fun s => decide (s.g.cls = some c)).map (fun s => (⟨s.a, s.idx⟩ : Item))) :
    ∃ s p, x.psr = s.a ∧ x.idx = s.idx ∧ s.g.cls = some c ∧ s ∈ slotsAt s.a p p.gps (idxOf hash (p.gps.map (bsig orf p.pos))) ∧
      SlotOk ps T Φ s p := by
  obtain ⟨s, hs, rfl⟩ := List.mem_map.1 hx
  obtain ⟨hs, hc⟩ := List.mem_filter.1 hs
  obtain ⟨p, ok⟩ := slots_ok hash orf ps T Φ hF s hs
  obtain ⟨⟨p', i⟩, hx', hs'⟩ := List.mem_flatMap.1 hs
  have hpi : ps[i]? = some p' := List.mem_zipIdx_iff_getElem?.1 hx'
  obtain ⟨L, hL, -⟩ := (hF p' (List.mem_of_getElem? hpi)).points
  obtain ⟨h1, h2, -⟩ := slotsAt_mem (bsig orf p'.pos) (fun _ => rfl) (fun _ => rfl) i p' L _ _ hL s hs'
  obtain rfl : s.a = i := h1
  obtain rfl : p' = p := by
    have := ok.psr
    rw [hpi] at this
    exact Option.some.inj this
  exact ⟨s, p', rfl, rfl, by simpa using hc, hs', ok⟩

theorem sameShare (hash : Col ℝ → H) (orf : Nat → Pos → Pos → ℝ) (ps : List JPsr) (h : Apt hash orf ps) (hs : SameCols ps)
    (T : JPsr → Nat → Col ℝ) (Φ : JPsr → Kern ℝ) (hF : ∀ p ∈ ps, Facts hash (p.gps.map (bsig orf p.pos)) (T p) (Φ p)) :
    PhiInv.SameShare (klasses hash orf ps) := by
  intro k hk k' hk' x hx y hy hxy a b ha hb he z hz
  obtain ⟨c, -, -, ek⟩ := klasses_items hash orf ps T Φ hF k hk
  obtain ⟨c', -, -, ek'⟩ := klasses_items hash orf ps T Φ hF k' hk'
  rw [ek] at hx hz
  rw [ek'] at hy ⊢
  obtain ⟨s, p, xa, xi, sc, sm, sok⟩ := item_slot hash orf ps T Φ hF c x hx
  obtain ⟨s', p', ya, yi, sc', sm', sok'⟩ := item_slot hash orf ps T Φ hF c' y hy
  obtain ⟨t, q, za, zi, tc, tm, tok⟩ := item_slot hash orf ps T Φ hF c z hz
  have haa : s.a = s'.a := by rw [← xa, ← ya, hxy]
  obtain rfl : p = p' := by
    have h1 := sok.psr
    rw [haa, sok'.psr] at h1
    exact (Option.some.inj h1).symm
  have hp : p ∈ ps := List.mem_of_getElem? sok.psr
  have hq : q ∈ ps := List.mem_of_getElem? tok.psr
  obtain ⟨f, hf⟩ := slot_map hash orf ps h hs p hp
  obtain ⟨h1, h2⟩ := hf s.a s sm sok.basis (by rw [sc]; simp)
  have sm'' : s' ∈ slotsAt s.a p p.gps (idxOf hash (p.gps.map (bsig orf p.pos))) := haa ▸ sm'
  obtain ⟨h1', -⟩ := hf s.a s' sm'' sok'.basis (by rw [sc']; simp)
  have la : a < s.g.basisAt.length := by rw [xi, h1, List.length_map] at ha; exact ha
  have lb : b < s'.g.basisAt.length := by rw [yi, h1', List.length_map] at hb; exact hb
  have hcol : s.g.basisAt[a]? = s'.g.basisAt[b]? := by
    rw [xi, yi, h1, h1'] at he
    simp only [List.getD_eq_getElem?_getD, List.getElem?_map, List.getElem?_eq_getElem la, List.getElem?_eq_getElem lb, Option.map_some,
      Option.getD_some] at he
    rw [List.getElem?_eq_getElem la, List.getElem?_eq_getElem lb,
      h2 s' sm'' sok'.basis (by rw [sc']; simp) _ (List.getElem_mem la) _ (List.getElem_mem lb) he]
  obtain ⟨g, hg, gb, gc, ge⟩ := hs.share p hp q hq c c' s.g s'.g t.g sok.mem sok'.mem tok.mem sok.basis sok'.basis tok.basis sc sc' tc a b la lb hcol
  obtain ⟨L, hL, -⟩ := (hF q hq).points
  obtain ⟨l, hl⟩ := has_slot (bsig orf q.pos) (fun _ => rfl) L _ _ hL g hg gb
  have hw := zip_slotsAt t.a q _ _ g l hl
  obtain ⟨f', hf'⟩ := slot_map hash orf ps h hs q hq
  obtain ⟨h3, -⟩ := hf' t.a t tm tok.basis (by rw [tc]; simp)
  obtain ⟨h4, -⟩ := hf' t.a _ hw gb (by rw [gc]; simp)
  refine ⟨⟨t.a, l⟩, List.mem_map.2 ⟨⟨t.a, q, g, l⟩, List.mem_filter.2 ⟨List.mem_flatMap.2 ⟨(q, t.a),
    List.mem_zipIdx_iff_getElem?.2 tok.psr, hw⟩, by simpa using gc⟩, rfl⟩, za.symm, ?_⟩
  have h4 : l = g.basisAt.map f' := h4
  rw [zi, h3, h4]
  simp only [List.getD_eq_getElem?_getD, List.getElem?_map, ge]

/-- C107: method `cliques` gives the likelihood of the joint covariance when the priors are vectors and all common processes share
columns in the same way in all pulsars. -/
theorem C107_cliques (hash : Col ℝ → H) (svd : ∀ {n : Nat} (M : Matrix (Fin n) (Fin n) ℝ), Svd M)
    (orf : Nat → Pos → Pos → ℝ) (ps : List JPsr) (h : Apt hash orf ps) (hs : SameCols ps)
    (m : JPsr → Nat) (N : ∀ p : JPsr, Matrix (Fin p.n) (Fin p.n) ℝ) (M : ∀ p : JPsr, Matrix (Fin p.n) (Fin (m p)) ℝ)
    (hN : NoiseIs ps m N M) :
    likelihood hash svd .cliques orf ps = .ok (some (density orf ps m N M + (ps.map fun p => p.logprior.sum).sum)) := by
  obtain ⟨T, Φ, hF⟩ := h.facts
  obtain ⟨qs, hst, e⟩ := density_eq hash orf ps h T Φ hF m N M hN
  have hw : width qs = PtaPhi.total (ps.map fun p => some (Φ p)) := by rw [← total_width, hst.phis]
  have hpos : (toMatrix (width qs) (bigF hash orf ps Φ)).PosDef := by rw [hw]; exact bigF_pos hash orf ps h T Φ hF
  unfold likelihood
  rw [hst.collect, ← e, ← hst.prior]
  simp only
  by_cases h0 : klasses hash orf ps = []
  · rw [h0, C84 svd .cliques (by simp) qs, ← jointLog_indep, ← blockDiag_jm]
    congr 5
    funext i j
    simp [bigF, h0, hst.phis]
  · obtain ⟨hk, hbig⟩ := phi_big hash orf ps h.ok h.size T Φ hF
    have hone : ∀ x, some x ∈ phisOf qs → ∃ n v, x = .one n v := by
      intro x hx
      rw [hst.phis] at hx
      obtain ⟨p, hp, ex⟩ := List.mem_map.1 hx
      cases ex
      exact facts_one hash orf ps T Φ hF hs.vec p hp
    have hvk : ∀ k ∈ klasses hash orf ps, PhiInv.VecKlass k := by
      intro k hk'
      obtain ⟨c, ec, -, ek⟩ := klasses_items hash orf ps T Φ hF k hk'
      obtain ⟨-, m2⟩ := members_slots hash orf ps T Φ hF c
      rintro ⟨⟨i1, x⟩, ⟨i2, y⟩⟩ hz
      obtain ⟨hx, hy⟩ := PtaPhi.mem_of_mem_pairs hz
      have hx : k.items[x]? = some i1 := List.mem_zipIdx_iff_getElem?.1 hx
      have hy : k.items[y]? = some i2 := List.mem_zipIdx_iff_getElem?.1 hy
      rw [ek, List.getElem?_map] at hx hy
      obtain ⟨s, hs', -⟩ := Option.map_eq_some_iff.1 hx
      obtain ⟨t, ht, -⟩ := Option.map_eq_some_iff.1 hy
      obtain ⟨p, ok⟩ := slots_ok hash orf ps T Φ hF s (List.mem_filter.1 (List.mem_of_getElem? hs')).1
      obtain ⟨n, v, ev⟩ := hs.vec p (List.mem_of_getElem? ok.psr) s.g ok.mem ok.basis
      refine ⟨n, fun i => v i * orf c s.p.pos t.p.pos, ?_⟩
      rw [ec]
      simp only [cross]
      rw [m2, List.getElem?_map, List.getElem?_map, hs', ht]
      simp only [Option.map_some, ev, phicross]
    obtain ⟨F, e1, e2⟩ := C57_cliques svd qs hst.basis (klasses hash orf ps) h0 (by rw [hst.phis]; exact hk) hvk (by
        intro x hx
        obtain ⟨n, v, rfl⟩ := hone x hx
        trivial) (by
        refine PhiInv.touch_aligned _ _ hone (by rw [hst.phis]; exact hk) hvk ?_ ?_ (sameShare hash orf ps h hs T Φ hF)
        · intro k hk'
          exact (klasses_items hash orf ps T Φ hF k hk').choose_spec.2.1
        · intro k hk' it hi
          obtain ⟨c, -, -, ek⟩ := klasses_items hash orf ps T Φ hF k hk'
          rw [ek] at hi
          obtain ⟨s, p, ea, -, -, -, ok⟩ := item_slot hash orf ps T Φ hF c it hi
          rw [ea, hst.phis, List.length_map]
          exact (List.getElem?_eq_some_iff.1 ok.psr).1)
    rw [hst.phis, hbig h0] at e1
    have : bigF hash orf ps Φ = F := by
      injection e1 with e1
      injection e1
    rw [← this] at e2
    exact e2 hpos

end Verif.Joined
