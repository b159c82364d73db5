import Verif.Model.Processes
import Verif.Props.Labels
import Verif.Model.Interp

/-!
Conditional processes, draws and timing-model parameters of `ConditionalGP` (C146).
-/

namespace Verif.Processes

open Verif Verif.Noise Verif.Joint Verif.Likelihood Verif.Combine Verif.Coefficients Matrix
open Verif.PhiInv (toMatrix)
open Verif.PtaPhi (Klass)

variable {H : Type} [DecidableEq H]

/-! ## Specification -/

/-- The key of an entry. -/
def Ask.key (a : Ask) (name : String) : String := if a.gp then name else name ++ "_coefficients"

/-- The names of the entries of a signal, without the ending for coefficients. -/
def entryNames (a : Ask) (s : LSig) : List String :=
  match s.b.basis with
  | none => []
  | some _ => (if isTiming s.name = true ∧ a.tm ≠ [] then a.tm.map fun p => firstPart s.name ++ "_" ++ p else []) ++ [s.name]

/-- The timing-model parameters asked for are fitted ones of the pulsar given, and the signals called timing models have a
column at the index of each of them. -/
def TmFits (a : Ask) (sigs : List LSig) : Prop :=
  a.tm = [] ∨ ∃ fit, a.fitpars = some fit ∧ (∀ p ∈ a.tm, p ∈ fit) ∧
    ∀ s ∈ sigs, isTiming s.name = true → s.b.basis ≠ none → ∀ p ∈ a.tm, fit.idxOf p < s.b.basisAt.length

/-! ## The loops -/

/-- The entry of a signal. -/
def ownEntry (a : Ask) (n : Nat) (b : Nat → ℝ) (s : LSig) (l : List Nat) : String × Val :=
  (a.key s.name, .vec (if a.gp then process n s.b.basisAt (l.map b) else l.map b))

/-- The entry of a timing-model parameter whose column has the index `i`. -/
def tmValue (a : Ask) (n : Nat) (b : Nat → ℝ) (s : LSig) (ntot i : Nat) : Val :=
  if a.gp then .vec ((List.range n).map fun t => (s.b.basisAt[i]?.getD 0) t * b (ntot + i)) else .num (b (ntot + i))

/-- The entries of the timing-model parameters. -/
def extra (a : Ask) (n : Nat) (b : Nat → ℝ) (s : LSig) (ntot : Nat) : List (String × Val) :=
  if isTiming s.name = true ∧ a.tm ≠ [] then
    a.tm.map fun p => (a.key (firstPart s.name ++ "_" ++ p), tmValue a n b s ntot ((a.fitpars.getD []).idxOf p))
  else []

/-- The entries of a pulsar. -/
def entriesOf (a : Ask) (n : Nat) (b : Nat → ℝ) : List LSig → Nat → List (String × Val)
  | [], _ => []
  | s :: t, cc =>
    match s.b.basis with
    | none => entriesOf a n b t cc
    | some F => extra a n b s cc ++ ownEntry a n b s (List.range' cc F.length) :: entriesOf a n b t (cc + F.length)

/-- The entries of all pulsars. -/
def entriesAll (a : Ask) (b : Nat → ℝ) : List PSigs → Nat → List (String × Val)
  | [], _ => []
  | p :: t, off => entriesOf a p.n b p.sigs off ++ entriesAll a b t (off + tot (p.sigs.map LSig.b))

theorem tmEntries_ok (a : Ask) (n len : Nat) (b : Nat → ℝ) (s : LSig) (ntot : Nat) (fit : List String)
    (hlen : s.b.basisAt.length + ntot ≤ len) (tm : List String) (hf : ∀ p ∈ tm, fit.idxOf p < s.b.basisAt.length)
    (h : ∀ p ∈ tm, p ∈ fit) :
    tmEntries a.gp n len b s ntot fit tm =
      .ok (tm.map fun p => (a.key (firstPart s.name ++ "_" ++ p), tmValue a n b s ntot (fit.idxOf p))) := by
  induction tm with
  | nil => rfl
  | cons p t ih =>
    have hp := h p (by simp)
    have hi' := hf p (by simp)
    rw [tmEntries, if_pos hp, ih (fun q hq => hf q (by simp [hq])) fun q hq => h q (by simp [hq])]
    cases hg : a.gp
    · have : ntot + fit.idxOf p < len := by omega
      simp [this, Ask.key, hg, tmValue]
    · simp [List.getElem?_eq_getElem hi', Ask.key, hg, tmValue]

theorem sigLoop_ok (a : Ask) (n len : Nat) (b : Nat → ℝ) (sigs : List LSig) (hs : ∀ s ∈ sigs, Plain s) (ht : TmFits a sigs) : ∀ ntot,
    ntot + tot (sigs.map LSig.b) ≤ len →
    sigLoop a n len b sigs ntot = .ok (entriesOf a n b sigs ntot, ntot + tot (sigs.map LSig.b)) := by
  induction sigs with
  | nil => intro ntot _; simp [sigLoop, entriesOf, tot]
  | cons s t ih =>
    intro ntot hle
    have ht' : TmFits a t := by
      rcases ht with h | ⟨fit, h1, h2, h3⟩
      · exact .inl h
      · exact .inr ⟨fit, h1, h2, fun s hs => h3 s (by simp [hs])⟩
    have ih := ih (fun s hs' => hs s (by simp [hs'])) ht'
    obtain ⟨hk, hl⟩ := hs s (by simp)
    rw [List.map_cons, tot] at hle ⊢
    rw [sigLoop, entriesOf]
    cases hb : s.b.basis with
    | none =>
      rw [if_pos (by rw [hk.2 hb]; rfl), ih _ (by simpa [hb] using hle)]
      simp
    | some F =>
      have hk' : wantBoth s.kind ≠ false := by
        intro h
        have : s.kind = .other := by
          cases e : s.kind <;> simp [e, wantBoth] at h ⊢
        rw [hk.1 this] at hb
        simp at hb
      rw [hb] at hle
      simp only [Option.map_some, Option.getD_some] at hle ⊢
      have hF := hl F hb
      rw [if_neg hk']
      have he : sigEntries a n len b s ntot = .ok (extra a n b s ntot ++ [ownEntry a n b s (List.range' ntot F.length)]) := by
        have hown : (if a.gp = true then (s.name, Val.vec (process n s.b.basisAt ((List.range' ntot F.length).map b)))
            else (s.name ++ "_coefficients", Val.vec ((List.range' ntot F.length).map b))) =
            ownEntry a n b s (List.range' ntot F.length) := by
          cases hg : a.gp <;> simp [ownEntry, Ask.key, hg]
        unfold sigEntries extra
        simp only [hF]
        rw [if_neg (by omega)]
        by_cases hc : isTiming s.name = true ∧ a.tm ≠ []
        · rw [if_pos hc, if_pos hc]
          rcases ht with h | ⟨fit, h1, h2, h3⟩
          · exact absurd h hc.2
          · rw [h1]
            simp only [Option.getD_some]
            rw [tmEntries_ok a n len b s ntot fit (by rw [hF]; omega) a.tm (h3 s (by simp) hc.1 (by simp [hb])) h2]
            simp only [hown]
        · rw [if_neg hc, if_neg hc, hown]; rfl
      simp only [he, hF]
      rw [ih _ (by omega)]
      simp [Nat.add_assoc]

theorem psrLoop_ok (a : Ask) (len : Nat) (b : Nat → ℝ) (ps : List PSigs) (hs : ∀ p ∈ ps, ∀ s ∈ p.sigs, Plain s)
    (ht : ∀ p ∈ ps, TmFits a p.sigs) : ∀ off, off + (ps.map fun p => tot (p.sigs.map LSig.b)).sum ≤ len →
    psrLoop a len b ps off = .ok (entriesAll a b ps off) := by
  induction ps with
  | nil => intro off _; rfl
  | cons p t ih =>
    intro off hle
    rw [List.map_cons, List.sum_cons] at hle
    rw [psrLoop, sigLoop_ok a p.n len b p.sigs (hs p (by simp)) (ht p (by simp)) off (by omega)]
    simp only
    rw [ih (fun p hp => hs p (by simp [hp])) (fun p hp => ht p (by simp [hp])) _ (by omega), entriesAll]

/-! ## Keys -/

theorem entriesOf_keys (a : Ask) (n : Nat) (b : Nat → ℝ) (sigs : List LSig) : ∀ cc,
    (entriesOf a n b sigs cc).map Prod.fst = (sigs.flatMap (entryNames a)).map a.key := by
  induction sigs with
  | nil => intro cc; rfl
  | cons s t ih =>
    intro cc
    rw [entriesOf, List.flatMap_cons, entryNames]
    cases hb : s.b.basis with
    | none => simpa using ih cc
    | some F =>
      simp only [List.map_append, List.map_cons, ih, ownEntry, extra]
      split <;> simp [Function.comp_def]

theorem entriesAll_keys (a : Ask) (b : Nat → ℝ) (ps : List PSigs) : ∀ off,
    (entriesAll a b ps off).map Prod.fst = (ps.flatMap fun p => p.sigs.flatMap (entryNames a)).map a.key := by
  induction ps with
  | nil => intro off; rfl
  | cons p t ih => intro off; simp only [entriesAll, List.map_append, entriesOf_keys, ih, List.flatMap_cons]

theorem key_inj (a : Ask) : Function.Injective a.key := by
  intro s t h
  unfold Ask.key at h
  split at h
  · exact h
  · exact coef_inj h

theorem entries_nodup (a : Ask) (b : Nat → ℝ) (ps : List PSigs) (off : Nat)
    (hn : (ps.flatMap fun p => p.sigs.flatMap (entryNames a)).Nodup) : ((entriesAll a b ps off).map Prod.fst).Nodup := by
  rw [entriesAll_keys]
  exact hn.map (key_inj a)

/-! ## Membership -/

theorem mem_entriesAll (a : Ask) (b : Nat → ℝ) (ps : List PSigs) : ∀ off (i : Nat) p, ps[i]? = some p → ∀ e,
    e ∈ entriesOf a p.n b p.sigs (off + ((ps.take i).map fun p => tot (p.sigs.map LSig.b)).sum) → e ∈ entriesAll a b ps off := by
  induction ps with
  | nil => intro off i p h; simp at h
  | cons q t ih =>
    intro off i p h e he
    rw [entriesAll, List.mem_append]
    cases i with
    | zero =>
      simp only [List.getElem?_cons_zero, Option.some.injEq] at h
      subst h
      exact .inl (by simpa using he)
    | succ i =>
      rw [List.getElem?_cons_succ] at h
      refine .inr (ih _ i p h e ?_)
      simpa [Nat.add_assoc] using he

theorem mem_entriesOf (a : Ask) (n : Nat) (b : Nat → ℝ) (sigs : List LSig) : ∀ cc off,
    ∀ x ∈ sigs.zip (seqIdx (sigs.map LSig.b) cc), ∀ l, x.2 = some l →
      ownEntry a n b x.1 (l.map (off + ·)) ∈ entriesOf a n b sigs (off + cc) ∧
      ∃ d, l = List.range' d l.length ∧ ∀ e ∈ extra a n b x.1 (off + d), e ∈ entriesOf a n b sigs (off + cc) := by
  induction sigs with
  | nil => intro cc off x hx; simp at hx
  | cons s t ih =>
    intro cc off x hx l hl
    rw [List.map_cons, seqIdx] at hx
    rw [entriesOf]
    cases hb : s.b.basis with
    | none =>
      rw [hb] at hx
      rcases List.mem_cons.1 hx with rfl | hx
      · simp at hl
      · exact ih cc off x hx l hl
    | some F =>
      rw [hb] at hx
      rcases List.mem_cons.1 hx with rfl | hx
      · simp only [Option.some.injEq] at hl
        subst hl
        refine ⟨?_, cc, by simp, fun e he => by simp [he]⟩
        simp [List.map_add_range']
      · obtain ⟨h1, d, h2, h3⟩ := ih (cc + F.length) off x hx l hl
        rw [← Nat.add_assoc] at h1 h3
        exact ⟨by simp [h1], d, h2, fun e he => by simp [h3 e he]⟩

theorem drawLoop_ok (f : Nat → Except PyErr (Dict String Val)) (g : Nat → Dict String Val) (l : List Nat)
    (h : ∀ j ∈ l, f j = .ok (g j)) : drawLoop f l = .ok (l.map g) := by
  induction l with
  | nil => rfl
  | cons j t ih => rw [drawLoop, h j (by simp), ih fun j hj => h j (by simp [hj])]; rfl

theorem concat_at (cs : List (Σ k, Fin k → ℝ)) : ∀ (i : Nat) (y : Σ k, Fin k → ℝ), cs[i]? = some y → ∀ j, j < y.1 →
    concatOf cs (((cs.take i).map Sigma.fst).sum + j) = concatOf [y] j := by
  induction cs with
  | nil => intro i y h; simp at h
  | cons c t ih =>
    intro i y h j hj
    cases i with
    | zero =>
      simp only [List.getElem?_cons_zero, Option.some.injEq] at h
      subst h
      simp [concatOf, hj]
    | succ i =>
      rw [List.getElem?_cons_succ] at h
      have := ih i y h j hj
      simp only [List.take_succ_cons, List.map_cons, List.sum_cons, Nat.add_assoc]
      rw [← this]
      simp [concatOf]

/-! ## The entries -/

/-- What the dictionary holds for a signal with coefficients `c`: the coefficients, or at each TOA the sum of the columns of
its basis times the coefficients; for each timing-model parameter asked for, the coefficient of its column, or the column
times the coefficient. -/
def Correct (a : Ask) (d : Dict String Val) (n : Nat) (s : LSig) (c : List ℝ) : Prop :=
  d.get? (a.key s.name) = some (.vec (if a.gp then process n s.b.basisAt c else c)) ∧
  (isTiming s.name = true → ∀ p ∈ a.tm, ∃ fit x f, a.fitpars = some fit ∧ c[fit.idxOf p]? = some x ∧
    s.b.basisAt[fit.idxOf p]? = some f ∧ d.get? (a.key (firstPart s.name ++ "_" ++ p)) =
      some (if a.gp then .vec ((List.range n).map fun t => f t * x) else .num x))

/-- The pulsars of an array as the loop sees them. -/
def sigsOf {hash : Col ℝ → H} (A : Array hash) : List PSigs := A.l.map fun x => ⟨x.2.p.n, x.1⟩

/-- No two entries have the same name. -/
def Keys (a : Ask) (ps : List PSigs) : Prop := (ps.flatMap fun p => p.sigs.flatMap (entryNames a)).Nodup

theorem correct_of (hash : Col ℝ → H) (a : Ask) (b : Nat → ℝ) (ps : List PSigs) (hs : ∀ p ∈ ps, ∀ s ∈ p.sigs, Plain s)
    (hd : ∀ p ∈ ps, Distinct hash p.sigs) (ht : ∀ p ∈ ps, TmFits a p.sigs) (hk : Keys a ps) (i : Nat) (p : PSigs) (hp : ps[i]? = some p)
    (x : LSig × Option (List Nat)) (hx : x ∈ p.sigs.zip (idxOf hash (p.sigs.map LSig.b))) (l : List Nat) (hl : x.2 = some l) :
    Correct a (Dict.ofList (entriesAll a b ps 0)) p.n x.1
      (l.map fun j => b (((ps.take i).map fun p => width1 hash p.sigs).sum + j)) := by
  have hpm : p ∈ ps := List.mem_of_getElem? hp
  have hseq := distinct_seq hash p.sigs (hd p hpm)
  rw [hseq.1] at hx
  have hw : ((ps.take i).map fun p => tot (p.sigs.map LSig.b)) = (ps.take i).map fun p => width1 hash p.sigs :=
    List.map_congr_left fun q hq => ((distinct_seq hash q.sigs (hd q (List.mem_of_mem_take hq))).2).symm
  have hall := mem_entriesAll a b ps 0 i p hp
  rw [hw, Nat.zero_add] at hall
  set off := ((ps.take i).map fun p => width1 hash p.sigs).sum with hoff
  obtain ⟨h1, d, h2, h3⟩ := mem_entriesOf a p.n b p.sigs 0 off x hx l hl
  rw [Nat.add_zero] at h1 h3
  have hnd := entries_nodup a b ps 0 hk
  rw [Dict.ofList_of_nodup hnd]
  have hxs : x.1 ∈ p.sigs := (List.of_mem_zip hx).1
  obtain ⟨F, hF, hlF⟩ : ∃ F, x.1.b.basis = some F ∧ l.length = F.length := by
    have : ∀ (sigs : List LSig) cc, ∀ x ∈ sigs.zip (seqIdx (sigs.map LSig.b) cc), ∀ l, x.2 = some l →
        ∃ F, x.1.b.basis = some F ∧ l.length = F.length := by
      intro sigs
      induction sigs with
      | nil => intro cc x hx; simp at hx
      | cons s t ih =>
        intro cc x hx l hl
        rw [List.map_cons, seqIdx] at hx
        cases hb : s.b.basis with
        | none =>
          rw [hb] at hx
          rcases List.mem_cons.1 hx with rfl | hx
          · simp at hl
          · exact ih cc x hx l hl
        | some F =>
          rw [hb] at hx
          rcases List.mem_cons.1 hx with rfl | hx
          · simp only [Option.some.injEq] at hl
            subst hl
            exact ⟨F, hb, by simp⟩
          · exact ih _ x hx l hl
    exact this p.sigs 0 x hx l hl
  have hlen : x.1.b.basisAt.length = l.length := by rw [hlF]; exact (hs p hpm x.1 hxs).2 F hF
  refine ⟨?_, fun hti q hq => ?_⟩
  · have := Dict.get?_of_mem hnd (hall _ h1)
    rw [this]
    simp [List.map_map, Function.comp_def]
  · rcases ht p hpm with h | ⟨fit, hfit, hsub, hcol⟩
    · rw [h] at hq; simp at hq
    · have hc := hcol x.1 hxs hti (by simp [hF]) q hq
      have hil : fit.idxOf q < l.length := by omega
      have hne : a.tm ≠ [] := fun h => by rw [h] at hq; simp at hq
      have hdl : l[fit.idxOf q]? = some (d + fit.idxOf q) := by
        rw [h2, List.getElem?_range' (by omega)]; simp
      refine ⟨fit, b (off + (d + fit.idxOf q)), x.1.b.basisAt[fit.idxOf q]'(by omega), hfit, ?_,
        List.getElem?_eq_getElem _, ?_⟩
      · rw [List.getElem?_map, hdl]; rfl
      · have hmem : (a.key (firstPart x.1.name ++ "_" ++ q), tmValue a p.n b x.1 (off + d) (fit.idxOf q)) ∈
            extra a p.n b x.1 (off + d) := by
          rw [extra, if_pos ⟨hti, hne⟩, hfit]
          exact List.mem_map.2 ⟨q, hq, rfl⟩
        rw [Dict.get?_of_mem hnd (hall _ (h3 _ hmem)), tmValue]
        rw [List.getElem?_eq_getElem (by omega : fit.idxOf q < x.1.b.basisAt.length), Nat.add_assoc]
        cases a.gp <;> simp

/-- Without timing-model parameters distinct names of the signals are enough. -/
theorem keys_of_names {hash : Col ℝ → H} (A : Array hash) (hd : ∀ x ∈ A.l, Distinct hash x.1) (a : Ask) (h : a.tm = []) :
    Keys a (sigsOf A) := by
  have hn := A.names
  rw [place_names, List.flatMap_map] at hn
  unfold Keys sigsOf
  rw [List.flatMap_map]
  have e : ∀ x ∈ A.l, (positions hash x.1 0).map Prod.fst = x.1.flatMap (entryNames a) := by
    intro x hx
    rw [positions_distinct hash x.1 (hd x hx)]
    generalize 0 = cc
    induction x.1 generalizing cc with
    | nil => rfl
    | cons s t ih =>
      rw [seqLabels, List.flatMap_cons, entryNames]
      cases s.b.basis with
      | none => simpa using ih cc
      | some F => simp [h, ih]
  rwa [List.flatMap_congr e] at hn

theorem coefs_eq (q : Known) (h : q.p.basis ≠ none) : coefs q.p = q.k := by
  rcases q.gp with ⟨h', -⟩ | ⟨h', -⟩
  · exact absurd h' h
  · rw [coefs, h']

/-- Where the coefficients of pulsar `i` begin among those of all pulsars. -/
def start {hash : Col ℝ → H} (A : Array hash) (i : Nat) : Nat := ((A.l.take i).map fun x => x.2.k).sum

/-- The number of coefficients of all pulsars. -/
def count {hash : Col ℝ → H} (A : Array hash) : Nat := (A.l.map fun x => x.2.k).sum

theorem deviates_eq {hash : Col ℝ → H} (A : Array hash) (z : Nat → ℝ) (j i : Nat) :
    deviates ((A.l.map Prod.snd).map Known.p) z j i = fun m => z (j * count A + start A i + m) := by
  have h : ∀ l : List (List LSig × Known), (∀ x ∈ l, x.2.p.basis ≠ none) →
      (((l.map Prod.snd).map Known.p).map coefs) = l.map fun x => x.2.k := by
    intro l hl
    rw [List.map_map, List.map_map]
    exact List.map_congr_left fun x hx => coefs_eq x.2 (hl x hx)
  unfold deviates count start
  rw [h A.l A.basis, ← List.map_take, ← List.map_take, h (A.l.take i) fun x hx => A.basis x (List.mem_of_mem_take hx)]

theorem starts_eq {hash : Col ℝ → H} (A : Array hash) (i : Nat) :
    (((sigsOf A).take i).map fun p => width1 hash p.sigs).sum = start A i := by
  unfold sigsOf start
  rw [← List.map_take, List.map_map]
  congr 1
  exact List.map_congr_left fun x hx => (A.size x (List.mem_of_mem_take hx)).symm

theorem sums_eq {hash : Col ℝ → H} (A : Array hash) (hd : ∀ x ∈ A.l, Distinct hash x.1) :
    ((sigsOf A).map fun p => tot (p.sigs.map LSig.b)).sum = count A := by
  unfold sigsOf count
  rw [List.map_map]
  congr 1
  exact List.map_congr_left fun x hx => by
    rw [A.size x hx, (distinct_seq hash x.1 (hd x hx)).2]; rfl

/-- The coefficients of pulsar `y`, number `i` of the array, in draw `j`: the conditional mean, and with a stream `z` of normal
deviates a draw from the part of the stream that belongs to the draw and the pulsar. -/
noncomputable def drawn {hash : Col ℝ → H} (lib : Lib) (A : Array hash) (z : Option (Nat → ℝ)) (j i : Nat) (y : List LSig × Known) :
    Fin y.2.k → ℝ :=
  meanOf y.2 + denseDraw lib y.2 (z.map fun z m => z (j * count A + start A i + m))

theorem cond_plain {hash : Col ℝ → H} (lib : Lib) (method : Method) (hm : method ≠ .other) (A : Array hash) (zs : Option (Nat → Nat → ℝ)) :
    ∃ b, condVector lib method ((A.l.map Prod.snd).map Known.p) [] zs = .ok (count A, b) ∧
      ∀ i y, A.l[i]? = some y → ∀ m, (h : m < y.2.k) → b (start A i + m) = (meanOf y.2 + denseDraw lib y.2 (zs.map fun z => z i)) ⟨m, h⟩ := by
  have hps := psrCoefs_ok lib zs (A.l.map Prod.snd) (by
    intro q hq
    obtain ⟨x, hx, rfl⟩ := List.mem_map.1 hq
    exact A.basis x hx) 0
  set cs := (((A.l.map Prod.snd).zipIdx 0).map fun x =>
    (⟨x.1.k, meanOf x.1 + denseDraw lib x.1 (zs.map fun z => z x.2)⟩ : Σ k, Fin k → ℝ)) with hcs
  have hfst : cs.map Sigma.fst = A.l.map fun x => x.2.k := by
    apply List.ext_getElem
    · simp [hcs]
    · intro i h1 h2
      simp [hcs]
  have hv : condVector lib method ((A.l.map Prod.snd).map Known.p) [] zs = .ok ((cs.map Sigma.fst).sum, concatOf cs) := by
    cases method with
    | other => exact absurd rfl hm
    | _ => simp only [condVector, hps]
  refine ⟨concatOf cs, by rw [hv, hfst]; rfl, fun i y hy m h => ?_⟩
  have hi : i < A.l.length := (List.getElem?_eq_some_iff.1 hy).1
  have hci : cs[i]? = some ⟨y.2.k, meanOf y.2 + denseDraw lib y.2 (zs.map fun z => z i)⟩ := by
    rw [hcs, List.getElem?_map, List.getElem?_zipIdx, List.getElem?_map, hy]
    simp
  have := concat_at cs i _ hci m h
  rw [List.map_take, hfst, ← List.map_take] at this
  rw [start, this]
  simp [concatOf, h]

theorem sample_of {hash : Col ℝ → H} (lib : Lib) (method : Method) (A : Array hash) (hd : ∀ x ∈ A.l, Distinct hash x.1) (a : Ask)
    (ht : ∀ x ∈ A.l, TmFits a x.1) (classes : List (Klass ℝ)) (n : Nat) (z : Option (Nat → ℝ)) (w : Option (Nat → Nat → ℝ) → Nat → ℝ)
    (hv : ∀ zs, condVector lib method ((A.l.map Prod.snd).map Known.p) classes zs = .ok (count A, w zs)) :
    sampleConditional lib method ((A.l.map Prod.snd).map Known.p) classes (sigsOf A) a n z =
      .ok ((List.range n).map fun j => Dict.ofList (entriesAll a
        (w (z.map fun z => deviates ((A.l.map Prod.snd).map Known.p) z j)) (sigsOf A) 0)) := by
  unfold sampleConditional
  rw [hv]
  simp only
  apply drawLoop_ok
  intro j _
  rw [hv]
  simp only
  rw [psrLoop_ok a (count A) _ (sigsOf A) (by
    intro p hp
    obtain ⟨x, hx, rfl⟩ := List.mem_map.1 hp
    exact A.plain x hx) (by
    intro p hp
    obtain ⟨x, hx, rfl⟩ := List.mem_map.1 hp
    exact ht x hx) 0 (by rw [sums_eq A hd, Nat.zero_add])]

theorem correct_at {hash : Col ℝ → H} (A : Array hash) (hd : ∀ x ∈ A.l, Distinct hash x.1) (a : Ask) (ht : ∀ x ∈ A.l, TmFits a x.1)
    (hk : Keys a (sigsOf A)) (b : Nat → ℝ) (i : Nat) (y : List LSig × Known) (hy : A.l[i]? = some y)
    (x : LSig × Option (List Nat)) (hx : x ∈ y.1.zip (idxOf hash (y.1.map LSig.b))) (l : List Nat) (hl : x.2 = some l) :
    Correct a (Dict.ofList (entriesAll a b (sigsOf A) 0)) y.2.p.n x.1 (l.map fun m => b (start A i + m)) := by
  have := correct_of hash a b (sigsOf A) (by
    intro p hp
    obtain ⟨x, hx, rfl⟩ := List.mem_map.1 hp
    exact A.plain x hx) (by
    intro p hp
    obtain ⟨x, hx, rfl⟩ := List.mem_map.1 hp
    exact hd x hx) (by
    intro p hp
    obtain ⟨x, hx, rfl⟩ := List.mem_map.1 hp
    exact ht x hx) hk i ⟨y.2.p.n, y.1⟩ (by rw [sigsOf, List.getElem?_map, hy]; rfl) x hx l hl
  rwa [starts_eq] at this

theorem pos_lt {hash : Col ℝ → H} {sigs : List LSig} {x : LSig × Option (List Nat)} (hx : x ∈ sigs.zip (idxOf hash (sigs.map LSig.b)))
    {l : List Nat} (hl : x.2 = some l) {m : Nat} (h : m ∈ l) : m < width1 hash sigs := by
  rw [width1, mem_iff_lt_ncol]
  exact List.mem_flatMap.2 ⟨x.2, (List.of_mem_zip hx).2, by rw [hl]; exact h⟩

/-- **C146, draws.**  Without common signals, `n` draws of the coefficients or of the processes of `ConditionalGP` (or, without a
stream of deviates, `n` times their mean) give `n` dictionaries.  Each holds for every signal of every pulsar its own
coefficients (or process) in one vector of coefficients, and for every timing-model parameter asked for that of its own
column; draws and pulsars use parts of the stream that do not overlap. -/
theorem C146_draws {hash : Col ℝ → H} (lib : Lib) (method : Method) (hm : method ≠ .other) (A : Array hash)
    (hd : ∀ x ∈ A.l, Distinct hash x.1) (a : Ask) (ht : ∀ x ∈ A.l, TmFits a x.1) (hk : a.tm ≠ [] → Keys a (sigsOf A)) (n : Nat)
    (z : Option (Nat → ℝ)) :
    ∃ ds, sampleConditional lib method ((A.l.map Prod.snd).map Known.p) [] (sigsOf A) a n z = .ok ds ∧ ds.length = n ∧
      ∀ j d, ds[j]? = some d → ∀ (i : Nat) (y : List LSig × Known), A.l[i]? = some y →
        ∀ x ∈ y.1.zip (idxOf hash (y.1.map LSig.b)), ∀ l, x.2 = some l →
        Correct a d y.2.p.n x.1 (pick (drawn lib A z j i y) l) := by
  have hk' : Keys a (sigsOf A) := by
    by_cases h : a.tm = []
    · exact keys_of_names A hd a h
    · exact hk h
  choose w hw1 hw2 using cond_plain lib method hm A
  refine ⟨_, sample_of lib method A hd a ht [] n z w hw1, by simp, ?_⟩
  intro j d hj i y hy x hx l hl
  rw [List.getElem?_map] at hj
  obtain ⟨j', hj', rfl⟩ := Option.map_eq_some_iff.1 hj
  obtain ⟨hlt, rfl⟩ := List.getElem?_eq_some_iff.1 hj'
  simp only [List.getElem_range]
  have h := correct_at A hd a ht hk' (w (z.map fun z => deviates ((A.l.map Prod.snd).map Known.p) z j)) i y hy x hx l hl
  have e : l.map (fun m => w (z.map fun z => deviates ((A.l.map Prod.snd).map Known.p) z j) (start A i + m)) =
      pick (drawn lib A z j i y) l := by
    apply List.map_congr_left
    intro m hmem
    have hlt : m < y.2.k := by
      rw [A.size y (List.mem_of_getElem? hy)]
      exact pos_lt hx hl hmem
    rw [hw2 _ i y hy m hlt, dif_pos hlt, drawn, Option.map_map]
    simp only [Function.comp_def, deviates_eq]
  rwa [e] at h

/-- **C146, mean.**  `get_mean_coefficients` and `get_mean_processes`. -/
theorem C146_mean {hash : Col ℝ → H} (lib : Lib) (method : Method) (hm : method ≠ .other) (A : Array hash)
    (hd : ∀ x ∈ A.l, Distinct hash x.1) (a : Ask) (ht : ∀ x ∈ A.l, TmFits a x.1) (hk : a.tm ≠ [] → Keys a (sigsOf A)) :
    ∃ d, getMean lib method ((A.l.map Prod.snd).map Known.p) [] (sigsOf A) a = .ok d ∧
      ∀ (i : Nat) (y : List LSig × Known), A.l[i]? = some y →
        ∀ x ∈ y.1.zip (idxOf hash (y.1.map LSig.b)), ∀ l, x.2 = some l →
        Correct a d y.2.p.n x.1 (pick (meanOf y.2) l) := by
  obtain ⟨ds, e, hlen, h⟩ := C146_draws lib method hm A hd a ht hk 1 none
  obtain ⟨d, rfl⟩ := List.length_eq_one_iff.1 hlen
  refine ⟨d, by rw [getMean, e], fun i y hy x hx l hl => ?_⟩
  have := h 0 d rfl i y hy x hx l hl
  simpa [drawn, denseDraw] using this

/-- **C146, common signals.**  The same for arrays with common signals: the vector is the conditional mean of the coefficients
of all pulsars together, plus the draw; the coefficients of a pulsar begin at `start`. -/
theorem C146_common {hash : Col ℝ → H} (lib : Lib) (method : Method) (A : Array hash)
    (hd : ∀ x ∈ A.l, Distinct hash x.1) (a : Ask) (ht : ∀ x ∈ A.l, TmFits a x.1) (hk : a.tm ≠ [] → Keys a (sigsOf A)) (n : Nat)
    (z : Option (Nat → ℝ)) (cs : List (Klass ℝ)) (h0 : cs ≠ []) (F : Nat → Nat → ℝ)
    (hF : (toMatrix (width (A.l.map Prod.snd)) F).PosDef)
    (hinv : bigPhiinv0 lib (phisOf (A.l.map Prod.snd)) cs method =
      .ok (toMatrix (PtaPhi.total (phisOf (A.l.map Prod.snd))) F)⁻¹) :
    ∃ ds, sampleConditional lib method ((A.l.map Prod.snd).map Known.p) cs (sigsOf A) a n z = .ok ds ∧ ds.length = n ∧
      ∀ j d, ds[j]? = some d → ∀ (i : Nat) (y : List LSig × Known), A.l[i]? = some y →
        ∀ x ∈ y.1.zip (idxOf hash (y.1.map LSig.b)), ∀ l, x.2 = some l →
        Correct a d y.2.p.n x.1 (pick (jointMean (A.l.map Prod.snd) F +
          sparseDraw lib (A.l.map Prod.snd) F (z.map fun z m => z (j * count A + m))) (l.map (start A i + ·))) := by
  have hk' : Keys a (sigsOf A) := by
    by_cases h : a.tm = []
    · exact keys_of_names A hd a h
    · exact hk h
  have hv := condVector_common lib method (A.l.map Prod.snd) (by
    intro q hq
    obtain ⟨x, hx, rfl⟩ := List.mem_map.1 hq
    exact A.basis x hx) cs h0 F hF hinv
  have hc : width (A.l.map Prod.snd) = count A := by
    rw [width, count, List.map_map]; rfl
  refine ⟨_, sample_of lib method A hd a ht cs n z (fun zs => concatOf [⟨width (A.l.map Prod.snd),
    jointMean (A.l.map Prod.snd) F + sparseDraw lib (A.l.map Prod.snd) F (zs.map fun z => z 0)⟩]) (fun zs => by rw [hv, ← hc]), by simp, ?_⟩
  intro j d hj i y hy x hx l hl
  rw [List.getElem?_map] at hj
  obtain ⟨j', hj', rfl⟩ := Option.map_eq_some_iff.1 hj
  obtain ⟨hlt, rfl⟩ := List.getElem?_eq_some_iff.1 hj'
  simp only [List.getElem_range]
  have h := correct_at A hd a ht hk' (concatOf [⟨width (A.l.map Prod.snd), jointMean (A.l.map Prod.snd) F +
    sparseDraw lib (A.l.map Prod.snd) F ((z.map fun z => deviates ((A.l.map Prod.snd).map Known.p) z j).map fun z => z 0)⟩]) i y hy x hx l hl
  rw [← pick_concat]
  have e : ((z.map fun z => deviates ((A.l.map Prod.snd).map Known.p) z j).map fun z => z 0) = z.map fun z m => z (j * count A + m) := by
    rw [Option.map_map]
    simp only [Function.comp_def, deviates_eq]
    simp [start]
  rw [e] at h ⊢
  rw [List.map_map]
  exact h

/-! ## Processes add up, and are Wiener filters -/

/-- The columns of the pulsar's basis at the positions of a signal are those of the signal (see `C60_columns`). -/
def Own (hash : Col ℝ → H) (y : List LSig × Known) : Prop :=
  ∀ x ∈ y.1.zip (idxOf hash (y.1.map LSig.b)), ∀ l, x.2 = some l → x.1.b.basisAt.length = l.length ∧
    ∀ (j : Nat) (i : Fin y.2.k) (f : Col ℝ), l[j]? = some i.1 → x.1.b.basisAt[j]? = some f → ∀ t, y.2.T t i = f t.1

/-- The process of a signal at a TOA. -/
theorem process_at {hash : Col ℝ → H} {y : List LSig × Known} (hw : y.2.k = width1 hash y.1) (ho : Own hash y)
    {x : LSig × Option (List Nat)} (hx : x ∈ y.1.zip (idxOf hash (y.1.map LSig.b))) {l : List Nat} (hl : x.2 = some l)
    (c : Fin y.2.k → ℝ) (t : Fin y.2.p.n) :
    (process y.2.p.n x.1.b.basisAt (pick c l))[t.1]? =
      some (l.map fun i => if h : i < y.2.k then y.2.T t ⟨i, h⟩ * c ⟨i, h⟩ else 0).sum := by
  obtain ⟨hlen, hT⟩ := ho x hx l hl
  rw [process, List.getElem?_map, List.getElem?_range t.2]
  simp only [Option.map_some, Option.some.injEq]
  congr 1
  apply List.ext_getElem
  · simp [pick, hlen]
  · intro j h1 h2
    rw [List.length_map] at h2
    have hlt : l[j] < y.2.k := by
      rw [hw]; exact pos_lt hx hl (List.getElem_mem h2)
    have hj : j < x.1.b.basisAt.length := hlen ▸ h2
    have := hT j ⟨l[j], hlt⟩ x.1.b.basisAt[j] (List.getElem?_eq_getElem h2) (List.getElem?_eq_getElem hj) t
    simp only [List.getElem_zipWith, pick, List.getElem_map, dif_pos hlt, this]

theorem flat_sum (f : Nat → ℝ) (ix : List (Option (List Nat))) :
    (ix.map fun o => ((o.getD []).map f).sum).sum = ((ix.flatMap fun o => o.getD []).map f).sum := by
  induction ix with
  | nil => rfl
  | cons o t ih => rw [List.map_cons, List.sum_cons, List.flatMap_cons, List.map_append, List.sum_append, ih]

theorem range_sum {k : Nat} (f : Fin k → ℝ) (g : Nat → ℝ) (h : ∀ i : Fin k, g i = f i) : ((List.range k).map g).sum = ∑ i, f i := by
  have : (List.range k).map g = List.ofFn f := by
    apply List.ext_getElem
    · simp
    · intro i h1 h2
      simpa using h ⟨i, by simpa using h1⟩
  rw [this, List.sum_ofFn]

theorem idx_length (hash : Col ℝ → H) (sigs : List (BSig ℝ)) : ∀ (hl : List H) (cc : Nat), (combineIdx hash sigs hl cc).length = sigs.length := by
  induction sigs with
  | nil => intro hl cc; rfl
  | cons s t ih =>
    intro hl cc
    unfold combineIdx
    split
    · simp [ih]
    · simp only
      split <;> simp [ih]

/-- **C146, sum.**  At every TOA the processes of a pulsar's signals add up to the basis of the pulsar times its
coefficients. -/
theorem C146_sum {hash : Col ℝ → H} (y : List LSig × Known) (hw : y.2.k = width1 hash y.1) (ho : Own hash y)
    (hd : Distinct hash y.1) (c : Fin y.2.k → ℝ) (t : Fin y.2.p.n) :
    ((y.1.zip (idxOf hash (y.1.map LSig.b))).map fun x =>
      match x.2 with
      | none => 0
      | some l => (process y.2.p.n x.1.b.basisAt (pick c l))[t.1]?.getD 0).sum = (y.2.T *ᵥ c) t := by
  have h1 : ((y.1.zip (idxOf hash (y.1.map LSig.b))).map fun x =>
      match x.2 with
      | none => 0
      | some l => (process y.2.p.n x.1.b.basisAt (pick c l))[t.1]?.getD 0) =
      (y.1.zip (idxOf hash (y.1.map LSig.b))).map ((fun o => ((o.getD []).map fun i =>
        if h : i < y.2.k then y.2.T t ⟨i, h⟩ * c ⟨i, h⟩ else 0).sum) ∘ Prod.snd) := by
    apply List.map_congr_left
    intro x hx
    cases hl : x.2 with
    | none => simp [hl]
    | some l => simp [hl, process_at hw ho hx hl c t]
  rw [h1, ← List.map_map, List.map_snd_zip, flat_sum]
  · have hs := distinct_seq hash y.1 hd
    rw [hs.1, seq_flat, ← hs.2, ← hw, ← List.range_eq_range']
    rw [range_sum (fun i => y.2.T t i * c i) _ fun i => by rw [dif_pos i.2]]
    rfl
  · rw [idxOf, idx_length, List.length_map]

/-- The basis of a signal as a matrix. -/
def basisMat (n : Nat) (s : LSig) : Matrix (Fin n) (Fin s.b.basisAt.length) ℝ := of fun t a => s.b.basisAt[a] t.1

theorem process_mat (n : Nat) (s : LSig) (v : Fin s.b.basisAt.length → ℝ) :
    process n s.b.basisAt (List.ofFn v) = List.ofFn (basisMat n s *ᵥ v) := by
  apply List.ext_getElem
  · simp [process]
  · intro t h1 h2
    simp only [process, List.getElem_map, List.getElem_range, List.getElem_ofFn]
    have : List.zipWith (fun (f : Col ℝ) (x : ℝ) => f t * x) s.b.basisAt (List.ofFn v) =
        List.ofFn fun a => s.b.basisAt[a] t * v a := by
      apply List.ext_getElem
      · simp
      · intro j h3 h4; simp
    rw [this, List.sum_ofFn]
    rfl

theorem pick_fn {k d : Nat} (c : Fin k → ℝ) (l : List Nat) (hl : l.length = d) (e : Fin d → Fin k) (he : ∀ a, l[a.1]? = some (e a).1) :
    pick c l = List.ofFn fun a => c (e a) := by
  subst hl
  apply List.ext_getElem
  · simp [pick]
  · intro j h1 h2
    have hj : j < l.length := by simpa [pick] using h1
    have := he ⟨j, hj⟩
    rw [List.getElem?_eq_getElem hj, Option.some.injEq] at this
    simp only [pick, List.getElem_map, List.getElem_ofFn]
    simp only [this]
    rw [dif_pos (e ⟨j, hj⟩).2]

theorem meanOf_eq (q : Known) : meanOf q = q.Φ *ᵥ (q.Tᵀ *ᵥ (projN q.C q.M *ᵥ q.r)) := by
  have h := mean_full q.hN q.hM q.pos q.T
  unfold meanOf Known.A Known.b Known.P Known.C
  rw [mulVec_mulVec, mulVec_mulVec, Matrix.mul_assoc, h, mulVec_mulVec, mulVec_mulVec, Matrix.mul_assoc _ _ (projN _ _)]

/-- The covariance of the process of a signal with columns `e` of the basis `T` and of the data. -/
def crossCov {k m : Nat} (n : Nat) (s : LSig) (Φ : Matrix (Fin k) (Fin k) ℝ) (e : Fin s.b.basisAt.length → Fin k)
    (T : Matrix (Fin m) (Fin k) ℝ) : Matrix (Fin n) (Fin m) ℝ :=
  basisMat n s * Φ.submatrix e id * Tᵀ

theorem cross_mul {k m n : Nat} (s : LSig) (Φ : Matrix (Fin k) (Fin k) ℝ) (e : Fin s.b.basisAt.length → Fin k)
    (T : Matrix (Fin m) (Fin k) ℝ) (w : Fin m → ℝ) :
    basisMat n s *ᵥ (fun a => (Φ *ᵥ (Tᵀ *ᵥ w)) (e a)) = crossCov n s Φ e T *ᵥ w := by
  unfold crossCov
  rw [← mulVec_mulVec, ← mulVec_mulVec]
  rfl

/-- **C146, Wiener filter.**  The mean process of a signal is its conditional expectation given the residuals: the covariance
of the process and the residuals times the inverse covariance of the residuals (the timing model projected out, if it
is marginalized) times the residuals. -/
theorem C146_wiener {hash : Col ℝ → H} (lib : Lib) (method : Method) (hm : method ≠ .other) (A : Array hash)
    (hd : ∀ x ∈ A.l, Distinct hash x.1) (a : Ask) (hg : a.gp = true) (ht : ∀ x ∈ A.l, TmFits a x.1) (hk : a.tm ≠ [] → Keys a (sigsOf A)) :
    ∃ d, getMean lib method ((A.l.map Prod.snd).map Known.p) [] (sigsOf A) a = .ok d ∧
      ∀ y ∈ A.l, ∀ x ∈ y.1.zip (idxOf hash (y.1.map LSig.b)), ∀ l, x.2 = some l → l.length = x.1.b.basisAt.length →
        ∀ e : Fin x.1.b.basisAt.length → Fin y.2.k, (∀ a, l[a.1]? = some (e a).1) →
        d.get? x.1.name = some (.vec (List.ofFn (crossCov y.2.p.n x.1 y.2.Φ e y.2.T *ᵥ (projN y.2.C y.2.M *ᵥ y.2.r)))) := by
  obtain ⟨d, h1, h2⟩ := C146_mean lib method hm A hd a ht hk
  refine ⟨d, h1, fun y hy x hx l hl hlen e he => ?_⟩
  obtain ⟨i, hi⟩ := List.mem_iff_getElem?.1 hy
  have h := (h2 i y hi x hx l hl).1
  rw [hg, if_pos rfl, pick_fn _ l hlen e he, process_mat, meanOf_eq, cross_mul] at h
  rw [← h, Ask.key, if_pos hg]

/-- **C146, Wiener filter with common signals.**  The same with the residuals of all pulsars: the mean process in a pulsar is
its conditional expectation given the residuals of all of them. -/
theorem C146_wiener_common {hash : Col ℝ → H} (lib : Lib) (method : Method) (A : Array hash)
    (hd : ∀ x ∈ A.l, Distinct hash x.1) (a : Ask) (hg : a.gp = true) (ht : ∀ x ∈ A.l, TmFits a x.1) (hk : a.tm ≠ [] → Keys a (sigsOf A))
    (cs : List (Klass ℝ)) (h0 : cs ≠ []) (F : Nat → Nat → ℝ)
    (hF : (toMatrix (width (A.l.map Prod.snd)) F).PosDef)
    (hinv : bigPhiinv0 lib (phisOf (A.l.map Prod.snd)) cs method =
      .ok (toMatrix (PtaPhi.total (phisOf (A.l.map Prod.snd))) F)⁻¹) :
    ∃ d, getMean lib method ((A.l.map Prod.snd).map Known.p) cs (sigsOf A) a = .ok d ∧
      ∀ (i : Nat) (y : List LSig × Known), A.l[i]? = some y → ∀ x ∈ y.1.zip (idxOf hash (y.1.map LSig.b)), ∀ l, x.2 = some l →
        l.length = x.1.b.basisAt.length → ∀ e : Fin x.1.b.basisAt.length → Fin (width (A.l.map Prod.snd)),
        (∀ a, (l.map (start A i + ·))[a.1]? = some (e a).1) →
        d.get? x.1.name = some (.vec (List.ofFn (crossCov y.2.p.n x.1 (toMatrix (width (A.l.map Prod.snd)) F) e
          (jm (fun q : Known => q.p.n) Known.k (fun q => q.T) (A.l.map Prod.snd)) *ᵥ
          (projN (jointCov (A.l.map Prod.snd) (toMatrix (width (A.l.map Prod.snd)) F)) (jointM (A.l.map Prod.snd)) *ᵥ
            jointR (A.l.map Prod.snd))))) := by
  obtain ⟨ds, e, hlen, h⟩ := C146_common lib method A hd a ht hk 1 none cs h0 F hF hinv
  obtain ⟨d, rfl⟩ := List.length_eq_one_iff.1 hlen
  refine ⟨d, by rw [getMean, e], fun i y hy x hx l hl hlen e he => ?_⟩
  have := (h 0 d rfl i y hy x hx l hl).1
  simp only [Option.map_none, sparseDraw, add_zero] at this
  rw [hg, if_pos rfl, pick_fn _ _ (by rw [List.length_map, hlen]) e he, process_mat, jointMean_eq _ _ hF, cross_mul] at this
  rw [← this, Ask.key, if_pos hg]

/-- For a process uncorrelated with the others of its pulsar the covariance with the residuals is the covariance `F φ Fᵀ` of the
process itself. -/
theorem C146_own {hash : Col ℝ → H} (y : List LSig × Known) (ho : Own hash y) (x : LSig × Option (List Nat))
    (hx : x ∈ y.1.zip (idxOf hash (y.1.map LSig.b))) (l : List Nat) (hl : x.2 = some l)
    (e : Fin x.1.b.basisAt.length → Fin y.2.k) (hi : Function.Injective e) (he : ∀ a, l[a.1]? = some (e a).1)
    (h0 : ∀ a j, j ∉ Set.range e → y.2.Φ (e a) j = 0) :
    crossCov y.2.p.n x.1 y.2.Φ e y.2.T = basisMat y.2.p.n x.1 * y.2.Φ.submatrix e e * (basisMat y.2.p.n x.1)ᵀ := by
  obtain ⟨hlen, hT⟩ := ho x hx l hl
  have hT' : ∀ t a, y.2.T t (e a) = basisMat y.2.p.n x.1 t a := fun t a =>
    hT a.1 (e a) x.1.b.basisAt[a] (he a) (List.getElem?_eq_getElem a.2) t
  unfold crossCov
  rw [Matrix.mul_assoc, Matrix.mul_assoc]
  congr 1
  ext a t
  simp only [Matrix.mul_apply, transpose_apply, submatrix_apply, id, ← hT']
  rw [← Finset.sum_image (s := Finset.univ) (g := e) (f := fun j => y.2.Φ (e a) j * y.2.T t j) (fun a _ b _ h => hi h)]
  symm
  apply Finset.sum_subset (Finset.subset_univ _)
  intro j _ hj
  rw [h0 a j (by
    rintro ⟨b, rfl⟩
    exact hj (Finset.mem_image.2 ⟨b, Finset.mem_univ _, rfl⟩)), zero_mul]

/-! ## Names of the timing-model parameters -/

/-- **C146, timing-model parameters.**  Where `Correct` holds (`C146_draws`, `C146_common`) and the columns of the timing model are
those of the fitted parameters of the pulsar given, in their order, the entry for a parameter is the coefficient, or the
process, of the column of this parameter.  Missing: the columns are others with `use_svd`, with `idx_exclude` and for pulsars
that fit other parameters (see below). -/
theorem C146_tm_partial (a : Ask) (d : Dict String Val) (n : Nat) (s : LSig) (c : List ℝ) (h : Correct a d n s c) (hs : isTiming s.name = true)
    (fit : List String) (hf : a.fitpars = some fit) (design : String → Col ℝ) (hb : s.b.basisAt = fit.map design)
    (p : String) (hp : p ∈ a.tm) :
    ∃ (j : Nat) (x : ℝ), fit[j]? = some p ∧ c[j]? = some x ∧ d.get? (a.key (firstPart s.name ++ "_" ++ p)) =
      some (if a.gp then .vec ((List.range n).map fun t => design p t * x) else .num x) := by
  obtain ⟨fit', x, f, h1, h2, h3, h4⟩ := h.2 hs p hp
  rw [hf, Option.some.injEq] at h1
  subst h1
  rw [hb, List.getElem?_map, Option.map_eq_some_iff] at h3
  obtain ⟨q, hq, rfl⟩ := h3
  obtain ⟨hlt, hq'⟩ := List.getElem?_eq_some_iff.1 hq
  have : q = p := by rw [← hq', List.getElem_idxOf hlt]
  subst this
  exact ⟨_, x, hq, h2, h4⟩

/-- The name of the entry begins with the name of the pulsar if that has no underscore. -/
theorem C146_names (psr sig : String) (h : '_' ∉ psr.toList) : firstPart (psr ++ "_" ++ sig) = psr := by
  have h1 : (psr ++ "_" ++ sig).toList = psr.toList ++ '_' :: sig.toList := by simp
  have h2 : ∀ l : List Char, '_' ∉ l → ∀ t, (l ++ '_' :: t).takeWhile (fun c => decide (c ≠ '_')) = l := by
    intro l hl t
    induction l with
    | nil => simp
    | cons c l ih =>
      have hc : c ≠ '_' := fun e => hl (by simp [e])
      rw [List.cons_append, List.takeWhile_cons, if_pos (by simpa using hc), ih fun hm => hl (by simp [hm])]
  rw [firstPart, h1]
  rw [h2 psr.toList h sig.toList, String.ofList_toList]

/-- The signals of a pulsar whose timing model comes first, asked for parameters of which it cannot find the names. -/
def Unknown (a : Ask) : Prop := a.fitpars = none ∨ ∃ fit, a.fitpars = some fit ∧ ∃ p ∈ a.tm, p ∉ fit

theorem tmEntries_error (gp : Bool) (n len : Nat) (b : Nat → ℝ) (s : LSig) (ntot : Nat) (fit : List String) (tm : List String)
    (hlen : s.b.basisAt.length + ntot ≤ len) (hf : ∀ p ∈ tm, p ∈ fit → fit.idxOf p < s.b.basisAt.length) (h : ∃ p ∈ tm, p ∉ fit) :
    tmEntries gp n len b s ntot fit tm = .error .valueError := by
  induction tm with
  | nil => obtain ⟨p, hp, -⟩ := h; cases hp
  | cons p t ih =>
    unfold tmEntries
    by_cases hp : p ∈ fit
    · rw [if_pos hp, ih (fun q hq => hf q (by simp [hq])) (by
        obtain ⟨q, hq, hn⟩ := h
        rcases List.mem_cons.1 hq with rfl | hq
        · exact absurd hp hn
        · exact ⟨q, hq, hn⟩)]
      have hi := hf p (by simp) hp
      have h2 : ntot + fit.idxOf p < len := by omega
      cases gp
      · simp [h2]
      · simp [List.getElem?_eq_getElem hi]
    · rw [if_neg hp]

theorem sigLoop_error (a : Ask) (ha : a.tm ≠ []) (hu : Unknown a) (n len : Nat) (b : Nat → ℝ) (sigs : List LSig) (hs : ∀ s ∈ sigs, Plain s)
    (hc : ∀ fit, a.fitpars = some fit → ∀ s ∈ sigs, s.b.basis ≠ none → ∀ p ∈ a.tm, p ∈ fit → fit.idxOf p < s.b.basisAt.length)
    (ht : ∃ s ∈ sigs, isTiming s.name = true ∧ s.b.basis ≠ none) : ∀ ntot,
    ntot + tot (sigs.map LSig.b) ≤ len → sigLoop a n len b sigs ntot = .error .valueError := by
  induction sigs with
  | nil => obtain ⟨s, hs', -⟩ := ht; cases hs'
  | cons s t ih =>
    intro ntot hle
    obtain ⟨hk, hl⟩ := hs s (by simp)
    rw [List.map_cons, tot] at hle
    rw [sigLoop]
    have ih := ih (fun s hs' => hs s (by simp [hs'])) fun fit hfit s hs' => hc fit hfit s (by simp [hs'])
    cases hb : s.b.basis with
    | none =>
      rw [if_pos (by rw [hk.2 hb]; rfl)]
      refine ih ?_ ntot (by simpa [hb] using hle)
      obtain ⟨x, hx, h1, h2⟩ := ht
      rcases List.mem_cons.1 hx with rfl | hx
      · exact absurd hb h2
      · exact ⟨x, hx, h1, h2⟩
    | some F =>
      have hk' : wantBoth s.kind ≠ false := by
        intro h
        have : s.kind = .other := by
          cases e : s.kind <;> simp [e, wantBoth] at h ⊢
        rw [hk.1 this] at hb
        simp at hb
      rw [hb] at hle
      simp only [Option.map_some, Option.getD_some] at hle ⊢
      have hF := hl F hb
      rw [if_neg hk']
      unfold sigEntries
      simp only
      rw [if_neg (by omega)]
      by_cases hti : isTiming s.name = true
      · rw [if_pos ⟨hti, ha⟩]
        rcases hu with h | ⟨fit, h, h'⟩
        · rw [h]
        · rw [h]
          simp only
          rw [tmEntries_error a.gp n len b s ntot fit a.tm (by omega) (hc fit h s (by simp) (by simp [hb])) h']
      · rw [if_neg fun h => hti h.1]
        simp only
        rw [ih (by
          obtain ⟨x, hx, h1, h2⟩ := ht
          rcases List.mem_cons.1 hx with rfl | hx
          · exact absurd h1 hti
          · exact ⟨x, hx, h1, h2⟩) _ (by omega)]

/-- **C146, unknown parameters.**  Timing-model parameters asked for without a pulsar to look them up in, or that the pulsar does not
fit, raise `ValueError`. -/
theorem C146_unknown {hash : Col ℝ → H} (lib : Lib) (method : Method) (hm : method ≠ .other) (A : Array hash)
    (hd : ∀ x ∈ A.l, Distinct hash x.1) (a : Ask) (ha : a.tm ≠ []) (hu : Unknown a)
    (hc : ∀ fit, a.fitpars = some fit → ∀ x ∈ A.l, ∀ s ∈ x.1, s.b.basis ≠ none → ∀ p ∈ a.tm, p ∈ fit → fit.idxOf p < s.b.basisAt.length)
    (y : List LSig × Known) (t : List (List LSig × Known)) (hA : A.l = y :: t)
    (ht : ∃ s ∈ y.1, isTiming s.name = true ∧ s.b.basis ≠ none) (n : Nat) (z : Option (Nat → ℝ)) :
    sampleConditional lib method ((A.l.map Prod.snd).map Known.p) [] (sigsOf A) a (n + 1) z = .error .valueError := by
  choose w hw1 hw2 using cond_plain lib method hm A
  unfold sampleConditional
  rw [hw1]
  simp only
  rw [List.range_succ_eq_map, drawLoop, hw1]
  have hy : y ∈ A.l := by rw [hA]; simp
  have hcount : tot (y.1.map LSig.b) ≤ count A := by
    rw [← (distinct_seq hash y.1 (hd y hy)).2, count, hA, List.map_cons, List.sum_cons, A.size y hy, width1]
    omega
  have hl := sigLoop_error a ha hu y.2.p.n (count A) (w (z.map fun z => deviates ((A.l.map Prod.snd).map Known.p) z 0)) y.1 (A.plain y hy)
    (fun fit hf s hs => hc fit hf y hy s hs) ht 0 (by omega)
  have : psrLoop a (count A) (w (z.map fun z => deviates ((A.l.map Prod.snd).map Known.p) z 0)) (sigsOf A) 0 = .error .valueError := by
    generalize w (z.map fun z => deviates ((A.l.map Prod.snd).map Known.p) z 0) = b at hl ⊢
    have e : sigsOf A = ⟨y.2.p.n, y.1⟩ :: t.map fun x => ⟨x.2.p.n, x.1⟩ := by rw [sigsOf, hA, List.map_cons]
    rw [e, psrLoop, hl]
  simp only [this]

/-! ## Cases -/

/-- The columns of a basis of two columns. -/
def cols (T : Matrix (Fin 2) (Fin 2) ℝ) : List (Col ℝ) :=
  [fun i => if i = 0 then T 0 0 else T 1 0, fun i => if i = 0 then T 0 1 else T 1 1]

/-- A signal with this basis and unit variances. -/
def tmSig (name : String) (T : Matrix (Fin 2) (Fin 2) ℝ) : LSig := ⟨name, .basis, ⟨false, false, some (cols T), cols T, .one 2 fun _ => 1⟩⟩

/-- A pulsar with two TOAs of variance 1, residuals 1 and 2, and this basis. -/
noncomputable def orth (T : Matrix (Fin 2) (Fin 2) ℝ) : Known where
  p := ⟨2, ![1, 2], [], [some (.base (.arr fun _ => 1))], some ⟨2, T⟩, some (.one 2 fun _ => 1), []⟩
  m := 0
  k := 2
  N := diagonal fun _ => 1
  M := of fun _ j => j.elim0
  T := T
  Φ := diagonal fun _ => 1
  noise := ⟨.base (.arr fun _ => 1), fun _ => True, rfl,
    whole_base (arr_exact (fun _ : Fin 2 => (1 : ℝ)) fun _ => by norm_num) _, trivial⟩
  gp := .inr ⟨rfl, _, rfl, rfl, by
    ext i j
    simp [toMatrix, PtaPhi.entries, Kernel.diagMat, Matrix.diagonal_apply, Fin.ext_iff]⟩
  pos := PosDef.diagonal fun _ => by norm_num

theorem orth_calc (T : Matrix (Fin 2) (Fin 2) ℝ) (hT : Tᵀ * T = 1) (M : Matrix (Fin 2) (Fin 0) ℝ) :
    (Tᵀ * (projN (diagonal fun _ => 1) M * T) + (diagonal fun _ => 1)⁻¹)⁻¹ *ᵥ
      (Tᵀ *ᵥ (projN (diagonal fun _ => 1) M *ᵥ (![1, 2] - ([] : List (Fin 2 → ℝ)).sum))) =
      (1 / 2 : ℝ) • (Tᵀ *ᵥ ![1, 2]) := by
  have hinv : ((1 : Matrix (Fin 2) (Fin 2) ℝ) + 1)⁻¹ = (1 / 2 : ℝ) • 1 := by
    apply inv_eq_right_inv
    rw [← two_smul ℝ (1 : Matrix (Fin 2) (Fin 2) ℝ)]
    simp [smul_smul]
  have hdiag : (diagonal fun _ : Fin 2 => (1 : ℝ)) = 1 := diagonal_one
  rw [projN_zero, hdiag, inv_one, Matrix.one_mul, hT, hinv, one_mulVec, smul_mulVec, one_mulVec, List.sum_nil, sub_zero]

theorem orth_mean (T : Matrix (Fin 2) (Fin 2) ℝ) (hT : Tᵀ * T = 1) : meanOf (orth T) = (1 / 2 : ℝ) • (Tᵀ *ᵥ (![1, 2] : Fin 2 → ℝ)) :=
  orth_calc T hT _

/-- Pulsars with one such signal each. -/
noncomputable def tmArray (l : List (String × Matrix (Fin 2) (Fin 2) ℝ)) (h : (l.map Prod.fst).Nodup) : Array (fun _ : Col ℝ => ()) where
  l := l.map fun x => ([tmSig x.1 x.2], orth x.2)
  plain := by
    intro x hx s hs
    obtain ⟨y, -, rfl⟩ := List.mem_map.1 hx
    simp only [List.mem_singleton] at hs
    subst hs
    exact ⟨by simp [tmSig], by intro F hF; simp only [tmSig, Option.some.injEq] at hF ⊢; subst hF; rfl⟩
  size := by
    intro x hx
    obtain ⟨y, -, rfl⟩ := List.mem_map.1 hx
    simp [width1, tmSig, cols, idxOf, combineIdx, columns, ncol, orth]
  basis := by
    intro x hx
    obtain ⟨y, -, rfl⟩ := List.mem_map.1 hx
    simp [orth]
  names := by
    rw [place_names, List.flatMap_map, List.flatMap_map]
    have : (l.flatMap fun x => (positions (fun _ : Col ℝ => ()) [tmSig x.1 x.2] 0).map Prod.fst) = l.map Prod.fst := by
      rw [List.map_eq_flatMap]
      apply List.flatMap_congr
      intro x _
      simp [positions, tmSig, cols, idxOf, combineIdx, columns]
    exact this ▸ h

theorem tm_idx (name : String) (T : Matrix (Fin 2) (Fin 2) ℝ) :
    idxOf (fun _ : Col ℝ => ()) ([tmSig name T].map LSig.b) = [some [0, 1]] := by
  simp [tmSig, cols, idxOf, combineIdx, columns]

theorem tm_distinct (l : List (String × Matrix (Fin 2) (Fin 2) ℝ)) (h : (l.map Prod.fst).Nodup) :
    ∀ x ∈ (tmArray l h).l, Distinct (fun _ : Col ℝ => ()) x.1 := by
  intro x hx
  obtain ⟨y, -, rfl⟩ := List.mem_map.1 hx
  rw [Distinct, tm_idx]; simp

theorem tm_fits (l : List (String × Matrix (Fin 2) (Fin 2) ℝ)) (h : (l.map Prod.fst).Nodup) (a : Ask) (fit : List String)
    (hf : a.fitpars = some fit) (hp : ∀ p ∈ a.tm, p ∈ fit ∧ fit.idxOf p < 2) : ∀ x ∈ (tmArray l h).l, TmFits a x.1 := by
  intro x hx
  obtain ⟨y, -, rfl⟩ := List.mem_map.1 hx
  refine .inr ⟨fit, hf, fun p h => (hp p h).1, fun s hs _ _ p h => ?_⟩
  simp only [List.mem_singleton] at hs
  subst hs
  exact (hp p h).2

/-- What `get_mean_processes` returns for such an array. -/
theorem tm_mean (lib : Lib) (method : Method) (hm : method ≠ .other) (l : List (String × Matrix (Fin 2) (Fin 2) ℝ))
    (h : (l.map Prod.fst).Nodup) (hT : ∀ x ∈ l, x.2ᵀ * x.2 = 1) (a : Ask) (fit : List String)
    (hf : a.fitpars = some fit) (hp : ∀ p ∈ a.tm, p ∈ fit ∧ fit.idxOf p < 2) (hk : Keys a (sigsOf (tmArray l h))) :
    ∃ d, getMean lib method (((tmArray l h).l.map Prod.snd).map Known.p) [] (sigsOf (tmArray l h)) a = .ok d ∧
      ∀ x ∈ l, Correct a d 2 (tmSig x.1 x.2) (List.ofFn ((1 / 2 : ℝ) • (x.2ᵀ *ᵥ (![1, 2] : Fin 2 → ℝ)))) := by
  obtain ⟨d, e, hd⟩ := C146_mean lib method hm (tmArray l h) (tm_distinct l h) a (tm_fits l h a fit hf hp) fun _ => hk
  refine ⟨d, e, fun x hx => ?_⟩
  obtain ⟨i, hi⟩ := List.mem_iff_getElem?.1 hx
  have := hd i ([tmSig x.1 x.2], orth x.2) (by rw [tmArray, List.getElem?_map, hi]; rfl) (tmSig x.1 x.2, some [0, 1]) (by
    rw [tm_idx]; simp) [0, 1] rfl
  rw [orth_mean _ (hT x hx)] at this
  have this' : Correct a d 2 (tmSig x.1 x.2) (pick (k := 2) ((1 / 2 : ℝ) • (x.2ᵀ *ᵥ (![1, 2] : Fin 2 → ℝ))) [0, 1]) := this
  rwa [pick_fn (d := 2) _ [0, 1] rfl id fun a => by fin_cases a <;> rfl] at this'

/-- The timing model of a pulsar `P`. -/
abbrev tmP : String := "P_linear_timing_model"

theorem tmP_timing : isTiming tmP = true := by decide

theorem tmP_first : firstPart tmP = "P" := by decide

theorem sigs_names (l : List (String × Matrix (Fin 2) (Fin 2) ℝ)) (h : (l.map Prod.fst).Nodup) (a : Ask) :
    Keys a (sigsOf (tmArray l h)) ↔ (l.flatMap fun x => entryNames a (tmSig x.1 x.2)).Nodup := by
  unfold Keys sigsOf tmArray
  simp only [List.flatMap_map, List.flatMap_cons, List.flatMap_nil, List.append_nil]

/-- The matrix with the columns (0, 1) and (1, 0). -/
def swap : Matrix (Fin 2) (Fin 2) ℝ := !![0, 1; 1, 0]

theorem swap_t : swapᵀ = swap := by
  ext i j
  fin_cases i <;> fin_cases j <;> rfl

theorem swap_mul : swapᵀ * swap = 1 := by
  rw [swap_t, one_fin_two]
  ext i j
  fin_cases i <;> fin_cases j <;> simp [swap, Matrix.mul_apply, Fin.sum_univ_two]

theorem swap_prod : (!![1, 0; 0, 2] : Matrix (Fin 2) (Fin 2) ℝ) = swap * diagonal ![2, 1] * swap := by
  have h : (diagonal ![2, 1] : Matrix (Fin 2) (Fin 2) ℝ) = !![2, 0; 0, 1] := by
    ext i j
    fin_cases i <;> fin_cases j <;> rfl
  rw [h]
  ext i j
  fin_cases i <;> fin_cases j <;> simp [swap, Matrix.mul_apply, Fin.sum_univ_two]

theorem swap_vec : (1 / 2 : ℝ) • (swapᵀ *ᵥ (![1, 2] : Fin 2 → ℝ)) = ![1, 1 / 2] := by
  rw [swap_t]
  ext i
  fin_cases i <;> simp [swap]

/-- A singular value decomposition of a design matrix with the columns (1, 0) and (0, 2): the singular values are in descending
order, the left vectors are (0, 1) and (1, 0). -/
def swapSvd : Interp.ThinSvd (!![1, 0; 0, 2] : Matrix (Fin 2) (Fin 2) ℝ) where
  u := swap
  s := (![2, 1] : Fin 2 → ℝ)
  v := swap
  hu := swap_mul
  hv := (congrArg (swap * ·) swap_t).trans ((congrArg (· * swap) swap_t.symm).trans swap_mul)
  hs := show ∀ i : Fin 2, (0 : ℝ) ≤ (![2, 1] : Fin 2 → ℝ) i from fun i => by fin_cases i <;> simp
  prod := swap_prod

/-- With `use_svd=True` the columns of the basis do not belong to single parameters.  The entry named after parameter `A`, whose
column of the design matrix is (1, 0), is the process (0, 1), the effect of parameter `B`. -/
theorem C146_svd_false (lib : Lib) (method : Method) (hm : method ≠ .other) :
    (∀ i j : Fin 2, i ≤ j → swapSvd.s j ≤ swapSvd.s i) ∧ swapSvd.u = swap ∧
    ∃ d, getMean lib method [(orth swap).p] [] [⟨2, [tmSig tmP swap]⟩] ⟨true, ["A"], some ["A", "B"]⟩ = .ok d ∧
      d.get? "P_A" = some (.vec [0, 1]) := by
  refine ⟨fun i j hij => ?_, rfl, ?_⟩
  · show (![2, 1] : Fin 2 → ℝ) j ≤ (![2, 1] : Fin 2 → ℝ) i
    fin_cases i <;> fin_cases j <;> simp_all
  obtain ⟨d, e, h⟩ := tm_mean lib method hm [(tmP, swap)] (by simp) (by
    intro x hx
    simp only [List.mem_singleton] at hx
    subst hx
    exact swap_mul) ⟨true, ["A"], some ["A", "B"]⟩ ["A", "B"] rfl (by simp) (by
    rw [sigs_names]
    simp [entryNames, tmSig, tmP_timing, tmP_first]
    simp [tmP])
  refine ⟨d, e, ?_⟩
  obtain ⟨fit, x, f, h1, h2, h3, h4⟩ := (h (tmP, swap) (by simp)).2 tmP_timing "A" (by simp)
  simp only [Option.some.injEq] at h1
  subst h1
  rw [swap_vec] at h2
  simp [tmSig, cols] at h2 h3
  subst h3 h2
  simpa [Ask.key, tmSig, tmP_first, List.range_succ, swap] using h4

/-- With `idx_exclude` the columns of the basis are not those of `fitpars`.  Of three parameters `A`, `B` and `C` the first is
excluded; the entry named after it is the process of `B`, with column (1, 0). -/
theorem C146_exclude_false (lib : Lib) (method : Method) (hm : method ≠ .other) :
    Interp.excludeCols (!![5, 1, 0; 6, 0, 1] : Matrix (Fin 2) (Fin 3) ℝ) [0] = .ok ⟨2, 1⟩ ∧
    ∃ d, getMean lib method [(orth 1).p] [] [⟨2, [tmSig tmP 1]⟩] ⟨true, ["A"], some ["A", "B", "C"]⟩ = .ok d ∧
      d.get? "P_A" = some (.vec [1 / 2, 0]) := by
  refine ⟨?_, ?_⟩
  · have hk : Interp.keptCols 3 [0] = [1, 2] := by decide
    unfold Interp.excludeCols
    rw [if_neg (by simp)]
    simp only [hk]
    rw [if_neg (by simp)]
    rw [one_fin_two]
    congr 2
    ext i j
    fin_cases i <;> fin_cases j <;> rfl
  obtain ⟨d, e, h⟩ := tm_mean lib method hm [(tmP, 1)] (by simp) (by
    intro x hx
    simp only [List.mem_singleton] at hx
    subst hx
    simp) ⟨true, ["A"], some ["A", "B", "C"]⟩ ["A", "B", "C"] rfl (by simp) (by
    rw [sigs_names]
    simp [entryNames, tmSig, tmP_timing, tmP_first]
    simp [tmP])
  refine ⟨d, e, ?_⟩
  obtain ⟨fit, x, f, h1, h2, h3, h4⟩ := (h (tmP, 1) (by simp)).2 tmP_timing "A" (by simp)
  simp only [Option.some.injEq] at h1
  subst h1
  simp [tmSig, cols] at h2 h3
  subst h3 h2
  simpa [Ask.key, tmSig, tmP_first, List.range_succ] using h4

/-- `fitpars` of one pulsar is used for all of them.  Pulsar `P` has the parameters `A` and `B` in this order, pulsar `Q` has `B` and `A`,
with the same columns (1, 0) and (0, 1).  Whichever of the two is given, the entries for `A` of both are taken from the same column,
while the right ones are 1/2 for `P` and 1 for `Q`. -/
theorem C146_pulsars_false (lib : Lib) (method : Method) (hm : method ≠ .other) (fit : List String) (hf : fit = ["A", "B"] ∨ fit = ["B", "A"]) :
    ∃ d, getMean lib method [(orth 1).p, (orth 1).p] [] [⟨2, [tmSig tmP 1]⟩, ⟨2, [tmSig "Q_linear_timing_model" 1]⟩]
        ⟨false, ["A"], some fit⟩ = .ok d ∧
      ∃ x : ℝ, d.get? "P_A_coefficients" = some (.num x) ∧ d.get? "Q_A_coefficients" = some (.num x) := by
  have hq : isTiming "Q_linear_timing_model" = true := by decide
  have hq1 : firstPart "Q_linear_timing_model" = "Q" := by decide
  obtain ⟨d, e, h⟩ := tm_mean lib method hm [(tmP, 1), ("Q_linear_timing_model", 1)] (by simp [tmP]) (by
    intro x hx
    simp only [List.mem_cons, List.not_mem_nil, or_false] at hx
    rcases hx with rfl | rfl <;> simp) ⟨false, ["A"], some fit⟩ fit rfl (by rcases hf with rfl | rfl <;> simp) (by
    rw [sigs_names]
    simp [entryNames, tmSig, tmP_timing, tmP_first, hq, hq1]
    simp [tmP])
  refine ⟨d, e, ?_⟩
  obtain ⟨f1, x, f, h1, h2, -, h4⟩ := (h (tmP, 1) (by simp)).2 tmP_timing "A" (by simp)
  obtain ⟨f2, y, g, g1, g2, -, g4⟩ := (h ("Q_linear_timing_model", 1) (by simp)).2 hq "A" (by simp)
  simp only [Option.some.injEq] at h1 g1
  subst h1 g1
  rw [h2] at g2
  simp only [Option.some.injEq] at g2
  subst g2
  refine ⟨x, ?_, ?_⟩
  · simpa [Ask.key, tmSig, tmP_first] using h4
  · simpa [Ask.key, tmSig, hq1] using g4

/-- Pulsars whose names agree up to the first underscore share the entries of their parameters: of the pulsars `X_1` and `X_2`, with
the means (1/2, 1) and (1, 1/2), only the value of the second is returned, as that of `X`. -/
theorem C146_names_false (lib : Lib) (method : Method) (hm : method ≠ .other) :
    ∃ d, getMean lib method [(orth 1).p, (orth swap).p] []
        [⟨2, [tmSig "X_1_timing_model" 1]⟩, ⟨2, [tmSig "X_2_timing_model" swap]⟩] ⟨false, ["A"], some ["A", "B"]⟩ = .ok d ∧
      d.keys = ["X_A_coefficients", "X_1_timing_model_coefficients", "X_2_timing_model_coefficients"] ∧
      d.get? "X_A_coefficients" = some (.num 1) := by
  have ht1 : isTiming "X_1_timing_model" = true := by decide
  have ht2 : isTiming "X_2_timing_model" = true := by decide
  have hf1 : firstPart "X_1_timing_model" = "X" := by decide
  have hf2 : firstPart "X_2_timing_model" = "X" := by decide
  have hn : ([("X_1_timing_model", (1 : Matrix (Fin 2) (Fin 2) ℝ)), ("X_2_timing_model", swap)].map Prod.fst).Nodup := by simp
  set A := tmArray [("X_1_timing_model", 1), ("X_2_timing_model", swap)] hn with hA
  choose w hw1 hw2 using cond_plain lib method hm A
  have e := sample_of lib method A (tm_distinct _ hn) ⟨false, ["A"], some ["A", "B"]⟩
    (tm_fits _ hn _ ["A", "B"] rfl (by simp)) [] 1 none w hw1
  have h2 := hw2 none 1 ([tmSig "X_2_timing_model" swap], orth swap) rfl 0 (by simp [orth])
  have h3 : start A 1 = 2 := by simp [start, hA, tmArray, orth]
  rw [h3, orth_mean _ swap_mul, swap_vec] at h2
  have h4 : w none 2 = 1 := by
    refine h2.trans ?_
    show ((![1, 1 / 2] : Fin 2 → ℝ) + (0 : Fin 2 → ℝ)) 0 = 1
    simp
  refine ⟨_, by
    have e' : sampleConditional lib method [(orth 1).p, (orth swap).p] []
        [⟨2, [tmSig "X_1_timing_model" 1]⟩, ⟨2, [tmSig "X_2_timing_model" swap]⟩] ⟨false, ["A"], some ["A", "B"]⟩ 1 none = _ := e
    rw [getMean, e']
    rfl, ?_, ?_⟩
  · simp [entriesAll, entriesOf, extra, ownEntry, tmSig, ht1, ht2, hf1, hf2, hA, sigsOf, tmArray, Ask.key, Dict.ofList,
      Dict.update, Dict.set, Dict.keys]
  · simp [entriesAll, entriesOf, extra, ownEntry, tmSig, ht1, ht2, hf1, hf2, hA, sigsOf, tmArray, Ask.key, Dict.ofList,
      Dict.update, Dict.set, Dict.get?,
      tmValue, tot, cols, h4]

/-! ### The hypotheses hold -/

/-- The mean processes of a timing model with two parameters. -/
example (lib : Lib) (method : Method) (hm : method ≠ .other) :
    ∃ d, getMean lib method [(orth 1).p] [] [⟨2, [tmSig tmP 1]⟩] ⟨true, ["B", "A"], some ["A", "B"]⟩ = .ok d ∧
      d.get? "P_A" = some (.vec [1 / 2, 0]) ∧ d.get? "P_B" = some (.vec [0, 1]) ∧ d.get? tmP = some (.vec [1 / 2, 1]) := by
  have hb : List.idxOf "B" ["A", "B"] = 1 := by decide
  obtain ⟨d, e, h⟩ := tm_mean lib method hm [(tmP, 1)] (by simp) (by
    intro x hx
    simp only [List.mem_singleton] at hx
    subst hx
    simp) ⟨true, ["B", "A"], some ["A", "B"]⟩ ["A", "B"] rfl (by simp [hb]) (by
    rw [sigs_names]
    simp [entryNames, tmSig, tmP_timing, tmP_first]
    simp [tmP])
  have h := h (tmP, 1) (by simp)
  refine ⟨d, e, ?_, ?_, ?_⟩
  · obtain ⟨fit, x, f, h1, h2, h3, h4⟩ := h.2 tmP_timing "A" (by simp)
    simp only [Option.some.injEq] at h1
    subst h1
    simp [tmSig, cols] at h2 h3
    subst h3 h2
    simpa [Ask.key, tmSig, tmP_first, List.range_succ] using h4
  · obtain ⟨fit, x, f, h1, h2, h3, h4⟩ := h.2 tmP_timing "B" (by simp)
    simp only [Option.some.injEq] at h1
    subst h1
    simp [tmSig, cols, hb] at h2 h3
    subst h3 h2
    simpa [Ask.key, tmSig, tmP_first, List.range_succ] using h4
  · have := h.1
    simpa [Ask.key, tmSig, process, cols, List.range_succ] using this

/-- The hypotheses of `C146_tm_partial` for this timing model. -/
example : (tmSig tmP 1).b.basisAt = ["A", "B"].map fun p i => if (p = "A") = (i = 0) then (1 : ℝ) else 0 := by
  simp only [tmSig, cols, List.map_cons, List.map_nil]
  congr 2 <;> (try congr 1) <;> (funext i; by_cases h : i = 0 <;> simp [h])

/-- Three draws of the coefficients of two pulsars and their timing-model parameters. -/
example (lib : Lib) (method : Method) (hm : method ≠ .other) (z : Nat → ℝ) :
    ∃ ds, sampleConditional lib method [(orth 1).p, (orth swap).p] [] [⟨2, [tmSig tmP 1]⟩, ⟨2, [tmSig "Q_linear_timing_model" swap]⟩]
      ⟨false, ["A"], some ["A", "B"]⟩ 3 (some z) = .ok ds ∧ ds.length = 3 := by
  have hq : isTiming "Q_linear_timing_model" = true := by decide
  have hq1 : firstPart "Q_linear_timing_model" = "Q" := by decide
  have hn : ([(tmP, (1 : Matrix (Fin 2) (Fin 2) ℝ)), ("Q_linear_timing_model", swap)].map Prod.fst).Nodup := by simp [tmP]
  obtain ⟨ds, e, h, -⟩ := C146_draws lib method hm (tmArray _ hn) (tm_distinct _ hn) ⟨false, ["A"], some ["A", "B"]⟩
    (tm_fits _ hn _ ["A", "B"] rfl (by simp)) (fun _ => by
      rw [sigs_names]
      simp [entryNames, tmSig, tmP_timing, tmP_first, hq, hq1]
      simp [tmP]) 3 (some z)
  exact ⟨ds, e, h⟩

/-- The two signals of `two`: their columns are those of its basis, and their processes add up to it. -/
theorem two_own (kind : Kind) : Own (fun _ : Col ℝ => ()) (twoSigs kind, two) := by
  intro x hx l hl
  have hx : x ∈ (twoSigs kind).zip [some [0], some [1]] := by rw [← twoSigs_idx kind]; exact hx
  simp only [twoSigs, List.zip_cons_cons, List.zip_nil_left, List.mem_cons, List.not_mem_nil, or_false] at hx
  rcases hx with rfl | rfl
  · simp only [Option.some.injEq] at hl
    subst hl
    refine ⟨rfl, fun j i f h1 h2 t => ?_⟩
    match j, h1, h2 with
    | 0, h1, h2 =>
      simp only [List.getElem?_cons_zero, Option.some.injEq] at h1 h2
      subst h2
      obtain rfl : i = (0 : Fin 2) := Fin.ext h1.symm
      show (1 : Matrix (Fin 2) (Fin 2) ℝ) t 0 = _
      match t with
      | ⟨0, _⟩ => rfl
      | ⟨1, _⟩ => rfl
    | j + 1, h1, h2 => simp at h1
  · simp only [Option.some.injEq] at hl
    subst hl
    refine ⟨rfl, fun j i f h1 h2 t => ?_⟩
    match j, h1, h2 with
    | 0, h1, h2 =>
      simp only [List.getElem?_cons_zero, Option.some.injEq] at h1 h2
      subst h2
      obtain rfl : i = (1 : Fin 2) := Fin.ext h1.symm
      show (1 : Matrix (Fin 2) (Fin 2) ℝ) t 1 = _
      match t with
      | ⟨0, _⟩ => rfl
      | ⟨1, _⟩ => rfl
    | j + 1, h1, h2 => simp at h1

example (c : Fin 2 → ℝ) (t : Fin 2) :
    (((twoSigs .basis).zip (idxOf (fun _ : Col ℝ => ()) ((twoSigs .basis).map LSig.b))).map fun x =>
      match x.2 with
      | none => 0
      | some l => (process 2 x.1.b.basisAt (pick c l))[t.1]?.getD 0).sum = (two.T *ᵥ c) t :=
  C146_sum (hash := fun _ => ()) (twoSigs .basis, two) ((twoArray .basis (by simp)).size _ (List.mem_singleton.2 rfl))
    (two_own _) (twoSigs_distinct _) c t

/-- The mean of the first process is that of a Gaussian process with its own covariance. -/
example (lib : Lib) (method : Method) (hm : method ≠ .other) :
    ∃ d s, getMean lib method [two.p] [] [⟨2, twoSigs .basis⟩] ⟨true, [], none⟩ = .ok d ∧ (twoSigs .basis)[0]? = some s ∧
      d.get? "c" = some (.vec (List.ofFn ((basisMat 2 s * (two.Φ.submatrix (fun _ => (0 : Fin 2)) fun _ => (0 : Fin 2)) *
        (basisMat 2 s)ᵀ) *ᵥ (projN two.C two.M *ᵥ two.r)))) := by
  obtain ⟨d, e, h⟩ := C146_wiener lib method hm (twoArray .basis (by simp)) (by
    intro x hx
    simp only [twoArray, List.mem_singleton] at hx
    subst hx
    exact twoSigs_distinct _) ⟨true, [], none⟩ rfl (fun _ _ => .inl rfl) fun h => absurd rfl h
  have hx : ((⟨"c", .basis, ⟨false, false, some [fun i => if i = 0 then 1 else 0], [fun i => if i = 0 then 1 else 0], .one 1 fun _ => 1⟩⟩ : LSig),
      some [0]) ∈ (twoSigs .basis).zip (idxOf (fun _ : Col ℝ => ()) ((twoSigs .basis).map LSig.b)) := by
    rw [twoSigs_idx]; simp [twoSigs]
  refine ⟨d, _, e, rfl, ?_⟩
  have h1 := h (twoSigs .basis, two) (List.mem_singleton.2 rfl) _ hx [0] rfl rfl (fun _ => (0 : Fin 2)) (by
    intro a; have := a.2; simp at this; simp [this])
  rw [C146_own (hash := fun _ => ()) (twoSigs .basis, two) (two_own _) _ hx [0] rfl (fun _ => (0 : Fin 2))
    (fun a b _ => Subsingleton.elim (α := Fin 1) a b) (by intro a; have := a.2; simp at this; simp [this]) (by
      intro a j hj
      have : (0 : Fin 2) ≠ j := fun h => hj ⟨a, h⟩
      exact diagonal_apply_ne _ this)] at h1
  exact h1

/-- Parameters of a timing model without a pulsar to look them up in. -/
example (lib : Lib) (method : Method) (hm : method ≠ .other) :
    sampleConditional lib method [(orth 1).p] [] [⟨2, [tmSig tmP 1]⟩] ⟨false, ["A"], none⟩ 1 none = .error .valueError := by
  have hn : ([(tmP, (1 : Matrix (Fin 2) (Fin 2) ℝ))].map Prod.fst).Nodup := by simp
  exact C146_unknown lib method hm (tmArray _ hn) (tm_distinct _ hn) ⟨false, ["A"], none⟩ (by simp) (.inl rfl)
    (by intro fit h; simp at h) ([tmSig tmP 1], orth 1) [] rfl ⟨tmSig tmP 1, by simp, tmP_timing, by simp [tmSig]⟩ 0 none

example : firstPart "J1713+0747_linear_timing_model" = "J1713+0747" := C146_names "J1713+0747" "linear_timing_model" (by decide)

/-- Two pulsars with a common signal: the first coefficients have the covariance 1/2. -/
noncomputable def half : Klass ℝ := ⟨[⟨0, [0]⟩, ⟨1, [0]⟩], fun _ _ => .one 1 fun _ => 1 / 2⟩

theorem half_phi (lib : Lib) : ∃ F, (toMatrix 4 F).PosDef ∧ ∀ method, method ≠ .other →
    bigPhiinv0 lib [some (.one 2 fun _ => 1), some (.one 2 fun _ => 1)] [half] method = .ok (toMatrix 4 F)⁻¹ := by
  obtain ⟨F, e, hF⟩ := one_class_inv lib [some (.one 2 fun _ => 1), some (.one 2 fun _ => 1)] half (by simp [half]) (by simp) (by
    refine ⟨?_, ?_⟩
    · intro it hit
      simp only [half, List.mem_cons, List.not_mem_nil, or_false] at hit
      rcases hit with rfl | rfl <;> simp [PtaPhi.ItemOk, PtaPhi.slices, Kernel.Kern.size]
    · intro xy hxy
      simp only [half, List.zipIdx_cons, List.zipIdx_nil, PtaPhi.pairs, List.map_cons, List.map_nil, List.append_nil,
        List.mem_singleton] at hxy
      subst hxy
      exact ⟨rfl, rfl⟩) (fun xy _ => ⟨1, _, rfl⟩) (by simp [half]) (by simp [half])
  simp [PtaPhi.getPhi, half, PtaPhi.total, PtaPhi.slices, PtaPhi.classLoop, Kernel.Kern.size, PtaPhi.pairs, PtaPhi.pairLoop,
    PtaPhi.blockDiag, PtaPhi.addCross, Kernel.fits, Kernel.put2, Kernel.bc] at e
  have hM : toMatrix 4 F = !![1, 0, 1 / 2, 0; 0, 1, 0, 0; 1 / 2, 0, 1, 0; 0, 0, 0, 1] := by
    rw [← e]
    ext i j
    fin_cases i <;> fin_cases j <;> simp [toMatrix, PtaPhi.entries, Kernel.diagMat]
  have hpos : (toMatrix 4 F).PosDef := by
    rw [hM]
    refine PosDef.of_dotProduct_mulVec_pos ?_ fun x hx => ?_
    · ext i j
      fin_cases i <;> fin_cases j <;> simp
    · have hne : ¬ (x 0 = 0 ∧ x 1 = 0 ∧ x 2 = 0 ∧ x 3 = 0) := by
        rintro ⟨h0, h1, h2, h3⟩
        exact hx (funext fun i => by fin_cases i <;> assumption)
      have : star x ⬝ᵥ (!![1, 0, 1 / 2, 0; 0, 1, 0, 0; 1 / 2, 0, 1, 0; 0, 0, 0, 1] *ᵥ x) =
          (x 0 + x 2) ^ 2 / 2 + x 0 ^ 2 / 2 + x 2 ^ 2 / 2 + x 1 ^ 2 + x 3 ^ 2 := by
        simp [dotProduct, mulVec, Fin.sum_univ_four]
        ring
      rw [this]
      by_contra hle
      apply hne
      have := sq_nonneg (x 0 + x 2)
      have := sq_nonneg (x 0)
      have := sq_nonneg (x 1)
      have := sq_nonneg (x 2)
      have := sq_nonneg (x 3)
      refine ⟨?_, ?_, ?_, ?_⟩ <;> exact pow_eq_zero_iff (two_ne_zero) |>.1 (by linarith)
  exact ⟨F, hpos, fun method hm => hF hpos method hm⟩

/-- The coefficients of these two pulsars, as in C60. -/
example (lib : Lib) (method : Method) (hm : method ≠ .other) :
    ∃ d, condCoefficients lib method [(orth 1).p, (orth swap).p] [half] [[tmSig "P_gw" 1], [tmSig "Q_gw" swap]] none = .ok d := by
  have hn : ([("P_gw", (1 : Matrix (Fin 2) (Fin 2) ℝ)), ("Q_gw", swap)].map Prod.fst).Nodup := by simp
  obtain ⟨F, hF, hinv⟩ := half_phi lib
  obtain ⟨d, e, -⟩ := C60_common lib method _ (tmArray _ hn) (tm_distinct _ hn) [half] (by simp) F hF (hinv method hm) none
  exact ⟨d, e⟩

/-- Three draws of the processes of these two pulsars, and the mean. -/
example (lib : Lib) (method : Method) (hm : method ≠ .other) (z : Nat → ℝ) :
    (∃ ds, sampleConditional lib method [(orth 1).p, (orth swap).p] [half] [⟨2, [tmSig "P_gw" 1]⟩, ⟨2, [tmSig "Q_gw" swap]⟩]
      ⟨true, [], none⟩ 3 (some z) = .ok ds ∧ ds.length = 3) ∧
    ∃ d, getMean lib method [(orth 1).p, (orth swap).p] [half] [⟨2, [tmSig "P_gw" 1]⟩, ⟨2, [tmSig "Q_gw" swap]⟩]
      ⟨true, [], none⟩ = .ok d := by
  have hn : ([("P_gw", (1 : Matrix (Fin 2) (Fin 2) ℝ)), ("Q_gw", swap)].map Prod.fst).Nodup := by simp
  obtain ⟨F, hF, hinv⟩ := half_phi lib
  obtain ⟨ds, e, h, -⟩ := C146_common lib method (tmArray _ hn) (tm_distinct _ hn) ⟨true, [], none⟩ (fun _ _ => .inl rfl)
    (fun h => absurd rfl h) 3 (some z) [half] (by simp) F hF (hinv method hm)
  obtain ⟨d, e', -⟩ := C146_wiener_common lib method (tmArray _ hn) (tm_distinct _ hn) ⟨true, [], none⟩ rfl (fun _ _ => .inl rfl)
    (fun h => absurd rfl h) [half] (by simp) F hF (hinv method hm)
  exact ⟨⟨ds, e, h⟩, d, e'⟩

end Verif.Processes
