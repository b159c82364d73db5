import Verif.Model.Coefficients

/-!
# Conditional processes

`ConditionalGP` of `enterprise/signals/utils.py` 37-138 with all its options: coefficients or processes, any number of
draws, and single parameters of the timing model (`tm_params`).
-/

namespace Verif.Processes

open Verif Verif.Likelihood Verif.Coefficients
open Verif.Combine (Col)
open Verif.PtaPhi (Klass)

/-- Entries of the dictionary: arrays, and for single coefficients numbers. -/
inductive Val
  | vec (l : List ℝ)
  | num (x : ℝ)

/-- `gp` of `_sample_conditional`, `self.tm_params`, and `self.psr.fitpars` (`none` if `psr` is not given). -/
structure Ask where
  gp : Bool
  tm : List String
  fitpars : Option (List String)

/-- A pulsar as the loop of `_sample_conditional` sees it: the number of TOAs and the signals. -/
structure PSigs where
  n : Nat
  sigs : List LSig

/-- `np.dot(sb, c)` for the columns `F` of a basis, utils.py 117: the sum over the columns at each of the `n` TOAs. -/
def process (n : Nat) (F : List (Col ℝ)) (c : List ℝ) : List ℝ :=
  (List.range n).map fun t => (List.zipWith (fun f x => f t * x) F c).sum

/-- `"timing_model" in sig.name`, utils.py 106. -/
def isTiming (name : String) : Bool := decide ("timing_model".toList <:+: name.toList)

/-- `sig.name.split("_")[0]`, utils.py 113. -/
def firstPart (name : String) : String := String.ofList (name.toList.takeWhile (· ≠ '_'))

/-- The loop over `tm_params`, utils.py 110-115, for the signal `s` whose coefficients begin at `ntot`. -/
def tmEntries (gp : Bool) (n len : Nat) (b : Nat → ℝ) (s : LSig) (ntot : Nat) (fit : List String) :
    List String → Except PyErr (List (String × Val))
  | [] => .ok []
  | p :: t =>
    if p ∈ fit then
      let i := fit.idxOf p
      let save := firstPart s.name ++ "_" ++ p
      let one : Except PyErr (String × Val) :=
        if gp then
          match s.b.basisAt[i]? with
          | none => .error .indexError
          | some f => .ok (save, .vec ((List.range n).map fun t => f t * b (ntot + i)))
        else if ntot + i < len then .ok (save ++ "_coefficients", .num (b (ntot + i)))
        else .error .indexError
      match one, tmEntries gp n len b s ntot fit t with
      | .error e, _ => .error e
      | _, .error e => .error e
      | .ok x, .ok l => .ok (x :: l)
    else .error .valueError

/-- What a signal adds to the dictionary, utils.py 103-119. -/
def sigEntries (a : Ask) (n len : Nat) (b : Nat → ℝ) (s : LSig) (ntot : Nat) : Except PyErr (List (String × Val)) :=
  let nb := s.b.basisAt.length
  if len < nb + ntot then .error .indexError
  else
    let c := (List.range' ntot nb).map b
    let own : String × Val :=
      if a.gp then (s.name, .vec (process n s.b.basisAt c)) else (s.name ++ "_coefficients", .vec c)
    if isTiming s.name = true ∧ a.tm ≠ [] then
      match a.fitpars with
      | none => .error .valueError
      | some fit =>
        match tmEntries a.gp n len b s ntot fit a.tm with
        | .error e => .error e
        | .ok l => .ok (l ++ [own])
    else .ok [own]

/-- The loop over the signals of a pulsar, utils.py 96-121; a coefficient-mode signal has no basis. -/
def sigLoop (a : Ask) (n len : Nat) (b : Nat → ℝ) : List LSig → Nat → Except PyErr (List (String × Val) × Nat)
  | [], ntot => .ok ([], ntot)
  | s :: t, ntot =>
    if wantBoth s.kind = false then sigLoop a n len b t ntot
    else
      match s.b.basis with
      | none => .error .attributeError
      | some _ =>
        match sigEntries a n len b s ntot with
        | .error e => .error e
        | .ok l =>
          match sigLoop a n len b t (ntot + s.b.basisAt.length) with
          | .error e => .error e
          | .ok (l', m) => .ok (l ++ l', m)

/-- The loop over the pulsars, utils.py 94-121. -/
def psrLoop (a : Ask) (len : Nat) (b : Nat → ℝ) : List PSigs → Nat → Except PyErr (List (String × Val))
  | [], _ => .ok []
  | p :: t, ntot =>
    match sigLoop a p.n len b p.sigs ntot with
    | .error e => .error e
    | .ok (l, m) =>
      match psrLoop a len b t m with
      | .error e => .error e
      | .ok l' => .ok (l ++ l')

/-- The number of coefficients of a pulsar. -/
def coefs (p : PsrEval) : Nat := match p.basis with | none => 0 | some ⟨k, _⟩ => k

/-- The deviates for draw `j` from the stream `z` of `np.random.randn`, utils.py 80-91: the draws follow one another, in
each the pulsars follow one another. -/
def deviates (ps : List PsrEval) (z : Nat → ℝ) (j : Nat) : Nat → Nat → ℝ :=
  fun a i => z (j * (ps.map coefs).sum + ((ps.take a).map coefs).sum + i)

/-- The draws `0, ..., n - 1` one after the other. -/
def drawLoop (f : Nat → Except PyErr (Dict String Val)) : List Nat → Except PyErr (List (Dict String Val))
  | [] => .ok []
  | j :: t =>
    match f j, drawLoop f t with
    | .error e, _ => .error e
    | _, .error e => .error e
    | .ok d, .ok l => .ok (d :: l)

/-- `ConditionalGP._sample_conditional`, utils.py 76-125; `z` is the stream of deviates, `none` without variance. -/
noncomputable def sampleConditional (lib : Lib) (method : Method) (ps : List PsrEval) (classes : List (Klass ℝ)) (sigs : List PSigs)
    (a : Ask) (n : Nat) (z : Option (Nat → ℝ)) : Except PyErr (List (Dict String Val)) :=
  match condVector lib method ps classes none with
  | .error e => .error e
  | .ok _ => drawLoop (fun j =>
      match condVector lib method ps classes (z.map fun z => deviates ps z j) with
      | .error e => .error e
      | .ok (len, b) =>
        match psrLoop a len b sigs 0 with
        | .error e => .error e
        | .ok l => .ok (Dict.ofList l)) (List.range n)

/-- `get_mean_coefficients` and `get_mean_processes`, utils.py 127-128, 133-134: the first of one element. -/
noncomputable def getMean (lib : Lib) (method : Method) (ps : List PsrEval) (classes : List (Klass ℝ)) (sigs : List PSigs) (a : Ask) :
    Except PyErr (Dict String Val) :=
  match sampleConditional lib method ps classes sigs a 1 none with
  | .error e => .error e
  | .ok l => match l with | d :: _ => .ok d | [] => .error .indexError

end Verif.Processes
