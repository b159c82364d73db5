import Mathlib.Analysis.SpecialFunctions.Pow.Real
import Mathlib.Analysis.SpecialFunctions.Log.Basic
import Mathlib.Algebra.BigOperators.Fin
import Verif.Model.WhiteNoise

/-!
# Wideband timing model

`enterprise/signals/gp_signals.py` 520-788.  Numbers are exact reals.  Values are cached by the decorators; the
caches are the subject of other modules.
-/

namespace Verif.Wideband

open Verif

/-- The argument `dmefac`, `log10_dmequad` or `dmjump`: a class of free parameters, or a constant with its value. -/
inductive Proto
  | free
  | const (v : Option ℝ)

/-- A parameter: its name and its attribute `value`, which free parameters do not have. -/
structure Param where
  name : String
  value : Option (Option ℝ)

/-- Calling a parameter class with a name (parameter.py 43-57, 139-142, 440-449). -/
def Proto.make (p : Proto) (name : String) : Param :=
  match p with
  | .free => ⟨name, none⟩
  | .const v => ⟨name, some v⟩

/-- One entry of `psr.dmx` (pulsar.py 414-424): the value, the interval in days and whether it is fitted. -/
structure Dmx where
  DMX : ℝ
  R1 : ℝ
  R2 : ℝ
  fit : Bool

/-- What the signal reads of a pulsar with `n` TOAs.  Simplification: the flags `pp_dm` and `pp_dme` exist and are
numbers. -/
structure Psr (n : Nat) where
  name : String
  stoas : Fin n → ℝ
  freqs : Fin n → ℝ
  ppDm : Fin n → ℝ
  ppDme : Fin n → ℝ
  dm : ℝ
  dmx : Option (Dict String Dmx)
  fitpars : List String

/-- A DMX bin: `_dmx`, `_dmindex` and `_dmwhich` (gp_signals.py 618-628). -/
structure Bin (n : Nat) where
  dmx : ℝ
  index : Nat
  which : Fin n → Bool

/-- The signal after `__init__`. -/
structure Signal (n : Nat) where
  psr : Psr n
  dmMasks : List Mask
  jumpMasks : List Mask
  dmefacs : List Param
  dmequads : List Param
  dmjumps : List Param
  bins : List (Bin n)

/-- `"_".join([n for n in [psr.name, key, last] if n])` (gp_signals.py 575, 582, 591). -/
def pname (psr key last : String) : String := "_".intercalate ([psr, key, last].filter fun s => s ≠ "")

/-- Is the TOA in the interval (gp_signals.py 626)? -/
noncomputable def inBin (d : Dmx) (stoa : ℝ) : Bool :=
  open Classical in decide (d.R1 ≤ stoa / 86400) && decide (stoa / 86400 < d.R2)

variable {n : Nat}

/-- The loop over the sorted DMX parameters (gp_signals.py 618-626); `fitpars.index` of a name that is not there
raises. -/
noncomputable def makeBins (fitpars : List String) (stoas : Fin n → ℝ) : List (String × Dmx) → Except PyErr (List (Bin n))
  | [] => .ok []
  | (key, d) :: rest =>
    if d.fit = false then .error .valueError
    else match fitpars.idxOf? key with
      | none => .error .valueError
      | some i => do
        let bs ← makeBins fitpars stoas rest
        .ok (⟨d.DMX, i, fun a => inBin d (stoas a)⟩ :: bs)

/-- `np.sum(check)` (gp_signals.py 613, 628-630). -/
def checkSum (bs : List (Bin n)) : Nat := (bs.map fun b => ∑ i, if b.which i then 1 else 0).sum

/-- The parameters for the DM jumps (gp_signals.py 588-598). -/
def makeJumps (psr : String) (dmjump : Option Proto) (ref : Option String) (keys : List String) : List Param :=
  match dmjump with
  | none => []
  | some j => keys.map fun key =>
      if ref = some key then (Proto.const (some 0)).make (pname psr key "dmjump") else j.make (pname psr key "dmjump")

/-- `WidebandTimingModel(...)(psr)` (gp_signals.py 552-636); `sel` and `jsel` are the masks of the two selections. -/
noncomputable def make (psr : Psr n) (dmefac : Proto) (dmequad dmjump : Option Proto) (sel jsel : Dict String Mask)
    (ref : Option String) : Except PyErr (Signal n) :=
  let dmItems := WhiteNoise.sortedItems sel
  let jItems := WhiteNoise.sortedItems jsel
  if jItems.map Prod.fst = [""] ∧ dmjump.isSome then .error .valueError
  else
    match psr.dmx with
    | none => .error .typeError
    | some dmx => do
      let bins ← makeBins psr.fitpars psr.stoas (WhiteNoise.sortedItems dmx)
      if checkSum bins ≠ n then .error .valueError
      else if "DM" ∈ psr.fitpars then .error .valueError
      else .ok {
        psr := psr
        dmMasks := dmItems.map Prod.snd
        jumpMasks := jItems.map Prod.snd
        dmefacs := dmItems.map fun km => dmefac.make (pname psr.name km.1 "dmefac")
        dmequads := match dmequad with
          | none => []
          | some q => dmItems.map fun km => q.make (pname psr.name km.1 "log10_dmequad")
        dmjumps := makeJumps psr.name dmjump ref (jItems.map Prod.fst)
        bins := bins }

/-- `params[p.name] if p.name in params else p.value`; a constant that has not been given a value cannot be
multiplied. -/
def look (params : Dict String ℝ) (p : Param) : Except PyErr ℝ :=
  match Dict.get? params p.name with
  | some v => .ok v
  | none => match p.value with
    | none => .error .attributeError
    | some none => .error .typeError
    | some (some v) => .ok v

/-- `sum(v * mask for v, mask in zip(vs, masks))`. -/
def maskSum (vs : List ℝ) (masks : List Mask) (i : Fin n) : ℝ :=
  (List.zipWith (fun v m => if m.getD i false then v else 0) vs masks).sum

/-- `get_dm` (gp_signals.py 681-691). -/
def getDm (s : Signal n) (params : Dict String ℝ) : Except PyErr (Fin n → ℝ) := do
  let js ← s.dmjumps.mapM (look params)
  .ok fun i => maskSum js s.jumpMasks i + s.psr.ppDm i

/-- `get_dme` (gp_signals.py 693-710). -/
noncomputable def getDme (s : Signal n) (params : Dict String ℝ) : Except PyErr (Fin n → ℝ) := do
  let es ← s.dmefacs.mapM (look params)
  match s.dmequads with
  | [] => .ok fun i => Real.sqrt (maskSum es s.dmMasks i ^ 2 * s.psr.ppDme i ^ 2)
  | _ :: _ => do
    let qs ← s.dmequads.mapM (look params)
    .ok fun i => Real.sqrt (maskSum es s.dmMasks i ^ 2 *
      (s.psr.ppDme i ^ 2 + maskSum (qs.map fun q => (10 : ℝ) ^ q) s.dmMasks i ^ 2))

/-- `x[which] = value` for each bin in turn, starting from zeros. -/
def fill (bins : List (Bin n)) (g : Bin n → Fin n → ℝ) : Fin n → ℝ :=
  bins.foldl (fun v b i => if b.which i then g b i else v i) fun _ => 0

/-- `np.sum(f[which])`. -/
def over (b : Bin n) (f : Fin n → ℝ) : ℝ := ∑ i, if b.which i then f i else 0

/-- The value in one bin of `get_mean_dm` (gp_signals.py 722). -/
noncomputable def binMean (dm dme : Fin n → ℝ) (b : Bin n) : ℝ :=
  over b (fun i => dm i / dme i ^ 2) / over b (fun i => 1 / dme i ^ 2)

/-- `get_mean_dm` (gp_signals.py 712-724). -/
noncomputable def meanDm (bins : List (Bin n)) (dm dme : Fin n → ℝ) : Fin n → ℝ :=
  fill bins fun b _ => binMean dm dme b

/-- `get_mean_dme` (gp_signals.py 726-739). -/
noncomputable def meanDme (bins : List (Bin n)) (dme : Fin n → ℝ) : Fin n → ℝ :=
  fill bins fun b _ => Real.sqrt (1 / over b fun i => 1 / dme i ^ 2)

/-- `get_phi` (gp_signals.py 647-662).  Simplification: the sum over an empty bin, of which numpy gives the infinite
inverse, gives zero here. -/
noncomputable def getPhi (s : Signal n) (params : Dict String ℝ) : Except PyErr (List ℝ) := do
  let dme ← getDme s params
  .ok (s.bins.foldl (fun phi b => phi.set b.index (1 / over b fun i => 1 / dme i ^ 2))
    (List.replicate s.psr.fitpars.length 1e40))

/-- `get_delay` (gp_signals.py 667-679). -/
noncomputable def getDelay (s : Signal n) (params : Dict String ℝ) : Except PyErr (Fin n → ℝ) := do
  let dm ← getDm s params
  let dme ← getDme s params
  let avg := meanDm s.bins dm dme
  .ok fun i => fill s.bins (fun b i => avg i - (s.psr.dm + b.dmx)) i / (2.41e-4 * s.psr.freqs i ^ 2)

/-- `x[which][0]`. -/
def first (b : Bin n) (f : Fin n → ℝ) : Except PyErr ℝ :=
  match (List.finRange n).find? b.which with
  | some i => .ok (f i)
  | none => .error .indexError

/-- `get_logsignalprior` (gp_signals.py 741-757). -/
noncomputable def logSignalPrior (s : Signal n) (params : Dict String ℝ) : Except PyErr ℝ := do
  let dm ← getDm s params
  let dme ← getDme s params
  let sq ← s.bins.mapM fun b => do
    let m ← first b (meanDm s.bins dm dme)
    let e ← first b (meanDme s.bins dme)
    return m ^ 2 / e ^ 2
  let lg ← s.bins.mapM fun b => do
    let e ← first b (meanDme s.bins dme)
    return Real.log e
  .ok (-(1 / 2) * (∑ i, dm i ^ 2 / dme i ^ 2) + 1 / 2 * sq.sum + (-(∑ i, Real.log (dme i)) + lg.sum))

/-- `get_delta_dm` (gp_signals.py 761-771). -/
noncomputable def deltaDm (s : Signal n) (params : Dict String ℝ) (useMean : Bool) : Except PyErr (Fin n → ℝ) := do
  let dm ← getDm s params
  let x ← if useMean then (getDme s params).map (meanDm s.bins dm) else .ok dm
  .ok (fill s.bins fun b i => x i - (s.psr.dm + b.dmx))

/-- `get_dm_chi2` (gp_signals.py 773-786). -/
noncomputable def dmChi2 (s : Signal n) (params : Dict String ℝ) (useMean : Bool) : Except PyErr ℝ := do
  let delta ← deltaDm s params useMean
  let dme ← getDme s params
  if useMean then
    let cs ← s.bins.mapM fun b => do
      let d ← first b delta
      let e ← first b (meanDme s.bins dme)
      return (d / e) ^ 2
    .ok cs.sum
  else .ok (∑ i, (delta i / dme i) ^ 2)

end Verif.Wideband
