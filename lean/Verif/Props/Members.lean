import Verif.Model.Background
import Verif.Props.Rows
import Verif.Props.Fourier

/-!
# Arrays with one process common to all pulsars
-/

namespace Verif.Background

open Verif Verif.Likelihood Verif.Noise Verif.Combine Verif.Joined Finset
open Verif.Orf (Pos orfMatrix)
open Verif.PhiInv (toMatrix)
open Verif.Kernel (Arr)
open Verif.Partition (Svd)

variable {H : Type} [DecidableEq H]

/-- A process of class 0 with a fixed basis of as many columns as there are variances `v`. -/
structure Alike (c : Bool) (v : List ℝ) (g : GSig) : Prop where
  combine : g.combine = c
  fixed : g.varying = false
  basis : g.basis = some g.basisAt
  len : g.basisAt.length = v.length
  prior : g.prior = .one v.length fun p => v.getD p 0
  cls : g.cls = some 0

theorem forall_get {α β : Type} {R : α → β → Prop} {l : List α} {m : List β} (h : List.Forall₂ R l m) :
    ∀ (i : Nat) (x : α) (y : β), l[i]? = some x → m[i]? = some y → R x y := by
  induction h with
  | nil => simp
  | cons hr _ ih =>
    intro i x y hx hy
    cases i with
    | zero => simp at hx hy; subst hx hy; exact hr
    | succ i => exact ih i x y (by simpa using hx) (by simpa using hy)

/-- The pulsars of the array with their common processes; `R` is what is known of the process of a pulsar, in terms of `φ`. -/
def Array' (c : Bool) (v : List ℝ) (R : Member → GSig → List ℝ → Prop) (ms : List Member) (ps : List JPsr) : Prop :=
  List.Forall₂ (fun m p => ∃ g φ, p = m.psr g ∧ Alike c v g ∧ R m g φ) ms ps

theorem ownSig_bsig (orf : Nat → Pos → Pos → ℝ) (pos : Pos) (b : BSig ℝ) : bsig orf pos (ownSig b) = b := rfl

/-- Asked of the other Gaussian processes of a pulsar. -/
def OwnOk (m : Member) : Prop := ∀ b ∈ m.before ++ m.after, b.varying = false ∧ SigOk b ∧ Collect.PriorPos b

theorem mem_gps {m : Member} {g x : GSig} (h : x ∈ (m.psr g).gps) : x = g ∨ ∃ b ∈ m.before ++ m.after, x = ownSig b := by
  simp only [Member.psr, List.mem_append, List.mem_map, List.mem_cons] at h ⊢
  rcases h with ⟨b, hb, rfl⟩ | rfl | ⟨b, hb, rfl⟩
  · exact .inr ⟨b, .inl hb, rfl⟩
  · exact .inl rfl
  · exact .inr ⟨b, .inr hb, rfl⟩

theorem ordered_all (l : List (BSig ℝ)) (h : ∀ b ∈ l, b.varying = false) : Ordered l := by
  induction l with
  | nil => trivial
  | cons x t ih =>
    refine ⟨fun _ hv => ?_, ih fun b hb => h b (by simp [hb])⟩
    rw [h x (by simp)] at hv
    cases hv

theorem ofClass_psr (m : Member) (g : GSig) (hb : g.basis.isSome = true) (hc : g.cls = some 0) (c : Nat) :
    (((m.psr g).gps.filter fun x => x.basis.isSome && decide (x.cls = some c)).map fun x => (x.prior, (m.psr g).pos)) =
      if c = 0 then [(g.prior, m.pos)] else [] := by
  have own : ∀ l : List (BSig ℝ), ((l.map ownSig).filter fun x : GSig => x.basis.isSome && decide (x.cls = some c)) = [] := by
    intro l
    rw [List.filter_eq_nil_iff]
    intro x hx
    obtain ⟨b, -, rfl⟩ := List.mem_map.1 hx
    simp [ownSig]
  simp only [Member.psr, List.filter_append, List.filter_cons, own, List.nil_append, hb, hc, Bool.true_and, Option.some.injEq, decide_eq_true_eq]
  by_cases h : c = 0
  · subst h; simp
  · have : ¬ 0 = c := fun e => h e.symm
    simp [h, this]

theorem ofClass_array {cb : Bool} {v : List ℝ} {R : Member → GSig → List ℝ → Prop} {ms : List Member} {ps : List JPsr} (h : Array' cb v R ms ps) (c : Nat) :
    ofClass ps c = if c = 0 then ms.map fun m => ((.one v.length fun p => v.getD p 0 : Arr ℝ), m.pos) else [] := by
  unfold ofClass
  induction h with
  | nil => simp
  | cons hr _ ih =>
    obtain ⟨g, φ, rfl, hg, -⟩ := hr
    rw [List.flatMap_cons, ih, ofClass_psr _ g (by rw [hg.basis]; rfl) hg.cls]
    by_cases hc : c = 0
    · subst hc; simp [hg.prior]
    · simp [hc]

theorem orf_pos {l : List (Arr ℝ × Pos)} {A : Arr ℝ} {ms : List Member} (hl : l = ms.map fun m => (A, m.pos)) (orf : Pos → Pos → ℝ)
    (h : (orfMatrix orf fun u : Fin ms.length => (ms[u]).pos).PosDef) : (orfMatrix orf fun u : Fin l.length => (l[u]).2).PosDef := by
  subst hl
  have e : (orfMatrix orf fun u : Fin (ms.map fun m => (A, m.pos)).length => ((ms.map fun m => (A, m.pos))[u]).2) =
      (orfMatrix orf fun u : Fin ms.length => (ms[u]).pos).submatrix (finCongr (List.length_map ..)) (finCongr (List.length_map ..)) := by
    ext i j
    simp [orfMatrix]
  rw [e]
  exact h.submatrix (finCongr (List.length_map ..)).injective

theorem apt_array (hash : Col ℝ → H) (hh : Function.Injective hash) (orf : Pos → Pos → ℝ) {cb : Bool} {v : List ℝ} (h0 : v ≠ [])
    (hv : ∀ x ∈ v, 0 < x) {R : Member → GSig → List ℝ → Prop} {ms : List Member} {ps : List JPsr} (h : Array' cb v R ms ps)
    (hown : ∀ m ∈ ms, OwnOk m) (hd : cb = true → ∀ p ∈ ps, ∀ g ∈ p.gps, g.cls = some 0 → g.basisAt.Nodup)
    (horf : (orfMatrix orf fun u : Fin ms.length => (ms[u]).pos).PosDef) : Apt hash (fun _ => orf) ps := by
  have hget : ∀ p ∈ ps, ∃ m ∈ ms, ∃ g, p = m.psr g ∧ Alike cb v g := by
    intro p hp
    obtain ⟨m, hm, g, φ, h1, h2, -⟩ := Fourier.forall₂_right h p hp
    exact ⟨m, hm, g, h1, h2⟩
  have hlen : 0 < v.length := List.length_pos_iff.2 h0
  refine ⟨?_, ?_, ?_, ?_, ?_, ?_, ?_⟩
  · intro p hp x hx
    obtain ⟨m, hm, g, rfl, hg⟩ := hget p hp
    rcases mem_gps hx with rfl | ⟨b, hb, rfl⟩
    · intro F hF
      have hF : x.basis = some F := hF
      rw [hg.basis] at hF
      cases hF
      refine ⟨?_, rfl, fun _ => rfl, ?_, fun _ hc => ?_⟩
      · intro e
        have := hg.len
        rw [e, List.length_nil] at this
        omega
      · simp only [bsig, hg.cls, hg.prior, Option.elim_some, PtaPhi.phicross, SizeOk]
        rw [hg.len]
      · have hc : x.combine = true := hc
        rw [hg.combine] at hc
        exact hd hc _ hp x (by simp [Member.psr]) hg.cls
    · exact (hown m hm b hb).2.1
  · intro p hp
    apply ordered_all
    intro b hb
    obtain ⟨x, hx, rfl⟩ := List.mem_map.1 hb
    obtain ⟨m, hm, g, rfl, hg⟩ := hget p hp
    rcases mem_gps hx with rfl | ⟨b, hb', rfl⟩
    · exact hg.fixed
    · exact (hown m hm b hb').1
  · intro p _ s _ s' _ F F' _ _ c _ c' _ e
    exact hh e
  · intro p hp
    obtain ⟨m, hm, g, rfl, hg⟩ := hget p hp
    exact ⟨g, by simp [Member.psr], by rw [hg.basis]; simp⟩
  · intro p hp x hx hb
    obtain ⟨m, hm, g, rfl, hg⟩ := hget p hp
    rcases mem_gps hx with rfl | ⟨b, hb', rfl⟩
    · rw [hg.prior, hg.len]
      exact Fourier.diag_pos v hv
    · exact (hown m hm b hb').2.2 hb
  · intro c u hu u' hv
    rw [ofClass_array h] at hu hv
    split at hu
    · rename_i hc
      rw [if_pos hc] at hv
      obtain ⟨m, -, rfl⟩ := List.mem_map.1 hu
      obtain ⟨m', -, rfl⟩ := List.mem_map.1 hv
      rfl
    · cases hu
  · intro c
    by_cases hc : c = 0
    · exact orf_pos (by rw [ofClass_array h, if_pos hc]) orf horf
    · have e : ofClass ps c = [] := by rw [ofClass_array h, if_neg hc]
      have : IsEmpty (Fin (ofClass ps c).length) := by rw [e]; exact Fin.isEmpty
      rw [Subsingleton.elim (orfMatrix orf fun u : Fin (ofClass ps c).length => ((ofClass ps c)[u]).2) 1]
      exact Matrix.PosDef.one

/-! ## The rows of two pulsars -/

theorem noise_rows (ps : List JPsr) (N : ∀ p : JPsr, Matrix (Fin p.n) (Fin p.n) ℝ) (a b : Nat) (p q : JPsr) (ha : ps[a]? = some p)
    (hb : ps[b]? = some q) (i j : Nat) (hi : i < p.n) (hj : j < q.n) (r s : Fin (ps.map JPsr.n).sum) (hr : (r : Nat) = rowStart ps a + i)
    (hs : (s : Nat) = rowStart ps b + j) : Joint.jm JPsr.n JPsr.n N ps r s = if a = b then spanned (N p) i j else 0 := by
  rw [jm_rect]
  have h := rect_at (ps.map fun p => (p.n, p.n, spanned (N p))) b (q.n, q.n, spanned (N q)) r j (by rw [List.getElem?_map, hb]; rfl) hj
    (by rw [List.map_map]; exact r.2)
  have e : (((ps.map fun p => (p.n, p.n, spanned (N p))).take b).map fun b => b.1).sum = rowStart ps b := by
    rw [← List.map_take, List.map_map]; rfl
  have e' : (((ps.map fun p => (p.n, p.n, spanned (N p))).take b).map fun b => b.2.1).sum = rowStart ps b := by
    rw [← List.map_take, List.map_map]; rfl
  rw [e, e', ← hs] at h
  rw [h]
  by_cases hab : a = b
  · subst hab
    rw [ha] at hb
    cases hb
    rw [if_pos rfl, if_pos ⟨by omega, by simp only; omega⟩, hr]
    exact congrArg (fun x => spanned (N p) x j) (Nat.add_sub_cancel_left _ _)
  · rw [if_neg hab, if_neg]
    rw [hr]
    exact not_row ps a b p q ha hb (fun e => hab e.symm) i hi

theorem own_sum (l : List (BSig ℝ)) (i j : Nat) :
    (((l.map ownSig).filter fun g => g.basis.isSome).map fun g => if g.cls = none then crossCov g g i j else 0).sum =
      (l.map fun b => sigCov b i j).sum := by
  induction l with
  | nil => rfl
  | cons b t ih =>
    rw [List.map_cons, List.filter_cons, List.map_cons, List.sum_cons, ← ih]
    cases hb : b.basis with
    | none =>
      have : (ownSig b).basis.isSome = false := by simp [ownSig, hb]
      rw [this]
      simp [sigCov, hb]
    | some F =>
      have : (ownSig b).basis.isSome = true := by simp [ownSig, hb]
      rw [this]
      simp only [if_true, List.map_cons, List.sum_cons]
      congr 1
      simp only [sigCov, hb, quad, ownSig, if_true, crossCov]

/-- The covariance of the Gaussian processes between two TOAs of the array. -/
theorem cov_rows (orf : Pos → Pos → ℝ) {cb : Bool} {v : List ℝ} {ps : List JPsr} (a b : Nat) (m m' : Member) (g g' : GSig)
    (ha : ps[a]? = some (m.psr g)) (hb : ps[b]? = some (m'.psr g')) (hg : Alike cb v g) (hg' : Alike cb v g') (i j : Nat)
    (hi : i < m.toas.length) (hj : j < m'.toas.length) :
    gpCov (fun _ => orf) ps (rowStart ps a + i) (rowStart ps b + j) =
      (if a = b then ((m.before ++ m.after).map fun o => sigCov o i j).sum else 0) + orf m.pos m'.pos * crossCov g g' i j := by
  rw [gpCov_rows (fun _ => orf) ps a b _ _ ha hb i j hi hj]
  have hsome : ∀ g : GSig, Alike cb v g → g.basis.isSome = true := fun g h => by rw [h.basis]; rfl
  have zero : ∀ (l : List (BSig ℝ)) (F : GSig → ℝ), (∀ b, F (ownSig b) = 0) → (((l.map ownSig).filter fun g : GSig => g.basis.isSome).map F).sum = 0 := by
    intro l F hF
    apply List.sum_eq_zero
    intro z hz
    obtain ⟨x, hx, rfl⟩ := List.mem_map.1 hz
    obtain ⟨b, -, rfl⟩ := List.mem_map.1 (List.mem_filter.1 hx).1
    exact hF b
  have single : ∀ (m : Member) (g : GSig), Alike cb v g → ∀ F : GSig → ℝ, (∀ b, F (ownSig b) = 0) →
      (((m.psr g).gps.filter fun g => g.basis.isSome).map F).sum = F g := by
    intro m g h F hF
    simp only [Member.psr, List.filter_append, List.filter_cons, hsome g h, if_true, List.map_append, List.sum_append, List.map_cons, List.sum_cons,
      zero _ F hF, add_zero, zero_add]
  congr 1
  · by_cases hab : a = b
    · rw [if_pos hab, if_pos hab]
      have hn : (if g.cls = none then crossCov g g i j else 0) = 0 := by rw [hg.cls]; simp
      simp only [Member.psr, List.filter_append, List.filter_cons, hsome g hg, if_true, List.map_append, List.sum_append, List.map_cons, List.sum_cons,
        own_sum, hn, zero_add]
    · rw [if_neg hab, if_neg hab]
  · rw [single m g hg _ (by
      intro b
      apply List.sum_eq_zero
      intro z hz
      obtain ⟨x, -, rfl⟩ := List.mem_map.1 hz
      rfl)]
    rw [single m' g' hg' _ (by
      intro b
      rw [hg.cls]
      rfl)]
    rw [hg.cls, hg'.cls]
    simp only [if_true]
    rfl

/-- The pulsars of the array have the TOAs, directions, noise and prior terms of the members, and their residuals less the
delays. -/
structure MemberData (m : Member) (p : JPsr) : Prop where
  res : (⟨p.n, p.res - p.delays.reduceOption.sum⟩ : Σ n, Fin n → ℝ) = ⟨m.toas.length, m.res - m.delays.reduceOption.sum⟩
  noise : (⟨p.n, p.noise⟩ : Σ n, List (Option (Nmat n ℝ))) = ⟨m.toas.length, m.noise⟩
  pos : p.pos = m.pos
  logprior : p.logprior = m.logprior

/-- The covariance of an array of the members `ms`: noise `N` and processes of its own in each pulsar, and between TOA `i` of pulsar `a` and TOA `j` of
pulsar `b` the overlap of the two pulsars times `X a b i j`. -/
def IsCov (orf : Pos → Pos → ℝ) (X : Nat → Nat → Nat → Nat → ℝ) (ms : List Member) (ps : List JPsr)
    (N : ∀ p : JPsr, Matrix (Fin p.n) (Fin p.n) ℝ) (C : Matrix (Fin (ps.map JPsr.n).sum) (Fin (ps.map JPsr.n).sum) ℝ) : Prop :=
  List.Forall₂ MemberData ms ps ∧ ∀ (a b : Nat) (m m' : Member) (p : JPsr), ms[a]? = some m → ms[b]? = some m' → ps[a]? = some p → ∀ i j, i < m.toas.length → j < m'.toas.length →
    ∀ r s : Fin (ps.map JPsr.n).sum, (r : Nat) = rowStart ps a + i → (s : Nat) = rowStart ps b + j →
      C r s = (if a = b then spanned (N p) i j + ((m.before ++ m.after).map fun o => sigCov o i j).sum else 0) + orf m.pos m'.pos * X a b i j

theorem density_array (orf : Pos → Pos → ℝ) {cb : Bool} {v : List ℝ} {R : Member → GSig → List ℝ → Prop} {ms : List Member} {ps : List JPsr}
    (h : Array' cb v R ms ps) :
    ∃ φ : Nat → List ℝ, (∀ a, (∃ m g, ms[a]? = some m ∧ Alike cb v g ∧ R m g (φ a)) ∨ φ a = []) ∧
      ∀ X : Nat → Nat → Nat → Nat → ℝ, (∀ a b m m' g g', ms[a]? = some m → ms[b]? = some m' → Alike cb v g → Alike cb v g' → R m g (φ a) →
          R m' g' (φ b) → ∀ i j, i < m.toas.length → j < m'.toas.length → crossCov g g' i j = X a b i j) →
      ∀ (m : JPsr → Nat) (N : ∀ p : JPsr, Matrix (Fin p.n) (Fin p.n) ℝ) (M : ∀ p : JPsr, Matrix (Fin p.n) (Fin (m p)) ℝ),
        ∃ C, IsCov orf X ms ps N C ∧ density (fun _ => orf) ps m N M = margLog C (Joint.jm JPsr.n m M ps)
          (Joint.jv JPsr.n (fun p => p.res - p.delays.reduceOption.sum) ps) := by
  have hx : ∀ a : Nat, ∃ φ : List ℝ, (∀ (m : Member) (p : JPsr), ms[a]? = some m → ps[a]? = some p → ∃ g, p = m.psr g ∧ Alike cb v g ∧ R m g φ) ∧
      ((∃ m g, ms[a]? = some m ∧ Alike cb v g ∧ R m g φ) ∨ φ = []) := by
    intro a
    by_cases hm : ∃ m p, ms[a]? = some m ∧ ps[a]? = some p
    · obtain ⟨m, p, hm, hp⟩ := hm
      obtain ⟨g, φ, h1, h2⟩ := forall_get h a m p hm hp
      refine ⟨φ, ?_, .inl ⟨m, g, hm, h2⟩⟩
      intro m' p' hm' hp'
      rw [hm] at hm'
      rw [hp] at hp'
      cases hm'
      cases hp'
      exact ⟨g, h1, h2⟩
    · exact ⟨[], fun m p h1 h2 => absurd ⟨m, p, h1, h2⟩ hm, .inr rfl⟩
  choose φ h1 h2 using hx
  refine ⟨φ, h2, fun X hX m N M => ⟨_, ⟨h.imp ?_, ?_⟩, rfl⟩⟩
  · rintro m p ⟨g, φ, rfl, -⟩
    exact ⟨rfl, rfl, rfl, rfl⟩
  intro a b m m' p hm hm' hp i j hi hj r s hr hs
  obtain ⟨g, rfl, hg, hR⟩ := h1 a m p hm hp
  have hlt : b < ps.length := by
    rw [← h.length_eq]
    exact (List.getElem?_eq_some_iff.1 hm').1
  obtain ⟨q, hq⟩ : ∃ q, ps[b]? = some q := ⟨_, List.getElem?_eq_getElem hlt⟩
  obtain ⟨g', rfl, hg', hR'⟩ := h1 b m' q hm' hq
  rw [Matrix.add_apply, noise_rows ps N a b _ _ hp hq i j hi hj r s hr hs]
  have e : toMatrix (ps.map JPsr.n).sum (gpCov (fun _ => orf) ps) r s = gpCov (fun _ => orf) ps (rowStart ps a + i) (rowStart ps b + j) := by
    rw [← hr, ← hs]; rfl
  rw [e, cov_rows orf a b m m' g g' hp hq hg hg' i j hi hj, hX a b m m' g g' hm hm' hg hg' hR hR' i j hi hj]
  by_cases hab : a = b
  · rw [if_pos hab, if_pos hab, if_pos hab]; ring
  · rw [if_neg hab, if_neg hab, if_neg hab]; ring

/-- The common process is the only one, if the other processes have priors that are vectors. -/
theorem one_class {cb : Bool} {v : List ℝ} {R : Member → GSig → List ℝ → Prop} {ms : List Member} {ps : List JPsr} (h : Array' cb v R ms ps)
    (hvec : ∀ m ∈ ms, ∀ b ∈ m.before ++ m.after, ∃ n v, b.phi = .one n v) : OneClass ps 0 := by
  have hget : ∀ p ∈ ps, ∃ m ∈ ms, ∃ g, p = m.psr g ∧ Alike cb v g := by
    intro p hp
    obtain ⟨m, hm, g, φ, h1, h2, -⟩ := Fourier.forall₂_right h p hp
    exact ⟨m, hm, g, h1, h2⟩
  refine ⟨?_, ?_, ?_⟩
  · intro p hpp g hg _
    obtain ⟨m, hm, g0, rfl, hg0⟩ := hget p hpp
    rcases mem_gps hg with rfl | ⟨b, hb, rfl⟩
    · exact ⟨_, _, hg0.prior⟩
    · exact hvec m hm b hb
  · intro p hpp g hg _
    obtain ⟨m, hm, g0, rfl, hg0⟩ := hget p hpp
    rcases mem_gps hg with rfl | ⟨b, hb, rfl⟩
    · exact .inr hg0.cls
    · exact .inl rfl
  · intro p hpp
    obtain ⟨m, hm, g0, rfl, hg0⟩ := hget p hpp
    have := congrArg List.length (ofClass_psr m g0 (by rw [hg0.basis]; rfl) hg0.cls 0)
    rw [List.length_map] at this
    rw [this]
    simp

end Verif.Background
