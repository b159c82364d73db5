import Verif.Model.Basic

/-!
# Caching decorators (`enterprise/signals/signal_base.py` 39-62, 776-1006, 1009-1071)
-/

namespace Verif.Cache

open Verif

/-- A parameter value: scalar or vector.  `np.ndim(v) > 0` values enter the key as
`tuple(v)` (signal_base.py 1036-1040). -/
inductive PVal (K : Type)
  | scalar (x : K)
  | vector (xs : List K)
  deriving DecidableEq

/-- A parameter dictionary. -/
abbrev Params (K : Type) := Dict String (PVal K)

/-- The cache key: the listed parameters that occur in `params`, with their values,
signal_base.py 1030-1041.  (Python's equality of numbers of different types, and NaN,
are outside the model.) -/
def cacheKey {K : Type} (names : List String) (params : Params K) : List (String × PVal K) :=
  names.filterMap fun n => (Dict.get? params n).map fun v => (n, v)

/-- Instance attributes `_cache_<method>` and `_cache_list_<method>`, signal_base.py 1045-1053. -/
structure CState (κ V : Type) where
  cache : Dict κ V
  list : List κ

/-- Attributes just created, signal_base.py 1049-1050. -/
def CState.empty {κ V : Type} : CState κ V := ⟨[], []⟩

section
variable {κ V σ : Type} [DecidableEq κ]

/-- `if len(cache_list) > limit: cache.pop(cache_list.pop(0), None)`, signal_base.py 1062-1063. -/
def evict (limit : Nat) (c : CState κ V) : CState κ V :=
  if limit < c.list.length then
    match c.list with
    | [] => c
    | k0 :: t => { cache := Dict.erase c.cache k0, list := t }
  else c

/-- The wrapper made by `cache_call`, signal_base.py 1027-1068, for one call whose key is `key`.
The object state `σ` contains the cache (read with `get`, written with `put`); `func` is the
wrapped method applied to the parameters; it may change the object state.  The key is appended
to the list *before* the method runs, so an exception leaves it there. -/
def wrap (get : σ → CState κ V) (put : σ → CState κ V → σ) (limit : Nat) (key : κ)
    (func : σ → σ × Except PyErr V) (s : σ) : σ × Except PyErr V :=
  match Dict.get? (get s).cache key with
  | some v => (s, .ok v)
  | none =>
    let r := func (put s { (get s) with list := (get s).list ++ [key] })
    match r.2 with
    | .error e => (r.1, .error e)
    | .ok v =>
      let c := evict limit { cache := Dict.set (get r.1).cache key v, list := (get r.1).list }
      (put r.1 c, Dict.get! c.cache key)

/-- A cached method whose body neither reads nor writes the object: the object state is the
cache alone. -/
def call1 (limit : Nat) (key : κ) (res : Except PyErr V) (s : CState κ V) :
    CState κ V × Except PyErr V :=
  wrap id (fun _ c => c) limit key (fun s => (s, res)) s

/-- A history of calls, each given by its key and the outcome the bare method has at that
moment; returns the final state and the results in order. -/
def runHist (limit : Nat) : List (κ × Except PyErr V) → CState κ V →
    CState κ V × List (Except PyErr V)
  | [], s => (s, [])
  | (k, res) :: t, s =>
    let r := call1 limit k res s
    let rest := runHist limit t r.1
    (rest.1, r.2 :: rest.2)

/-! ## Constants (C29) -/

/-- The method reads constants `τ` of the object besides the listed parameters. -/
def callC {τ : Type} (limit : Nat) (key : κ) (f : τ → V) (s : CState κ V × τ) :
    (CState κ V × τ) × Except PyErr V :=
  wrap Prod.fst (fun s c => (c, s.2)) limit key (fun s => (s, .ok (f s.2))) s

/-- What a user does: `set_default_params` (signal_base.py 123-133, 365-367), after which the constants are `c`, or a call of the
cached method with parameters whose key is `k`. -/
inductive Op (κ τ : Type)
  | set (c : τ)
  | call (k : κ)

/-- A history of such operations on an object with constants; `f k c` is what the bare method returns for key `k` and constants
`c`.  Setting the constants does not touch the cache (signal_base.py 123-133).  Returns the results of the calls in order. -/
def runOps {τ : Type} (limit : Nat) (f : κ → τ → V) : List (Op κ τ) → CState κ V × τ →
    (CState κ V × τ) × List (Except PyErr V)
  | [], s => (s, [])
  | .set c :: t, s => runOps limit f t (s.1, c)
  | .call k :: t, s =>
    let r := callC limit k (f k) s
    let rest := runOps limit f t r.1
    (rest.1, r.2 :: rest.2)

/-! ## Methods returning a reference to an internal buffer (C30, C31)

`EcorrKernelNoise._get_ndiag_sparse` (white_signals.py 266-271) overwrites `self._Ns` and returns
it; `PhysicalEphemerisSignal.get_delay` (deterministic_signals.py 198-204) overwrites
`self._delay`; `BasisGP._construct_basis` (gp_signals.py 96-120) overwrites `self._basis`,
`self._slices`, `self._labels`.  The cached value is the reference, modelled by `Unit`; what
the caller sees is the buffer content. -/

/-- Object state: cache of references, and the buffer. -/
structure BufState (κ B : Type) where
  cs : CState κ Unit
  buf : B

/-- One call; `compute` is the content written for these parameters.  The second component is
the content of the returned object at return time. -/
def callBuf {B : Type} (limit : Nat) (key : κ) (compute : B) (s : BufState κ B) :
    BufState κ B × Except PyErr B :=
  let r := wrap BufState.cs (fun s c => { s with cs := c }) limit key
    (fun s => ({ s with buf := compute }, .ok ())) s
  (r.1, r.2.map fun _ => r.1.buf)

/-- A history of calls of a buffer-returning method. -/
def runBuf {B : Type} (limit : Nat) (compute : κ → B) : List κ → BufState κ B →
    BufState κ B × List (Except PyErr B)
  | [], s => (s, [])
  | k :: t, s =>
    let r := callBuf limit k (compute k) s
    let rest := runBuf limit compute t r.1
    (rest.1, r.2 :: rest.2)

end

/-! ## `simplememobyid` -/

/-- A call argument: one object, or a sequence of objects (list or tuple); objects are given by
their identity. -/
inductive Arg
  | obj (id : Nat)
  | seq (ids : List Nat)
  deriving DecidableEq

/-- `_simplememobyid_keycheck`, signal_base.py 39-43: for a sequence the test is element by
element identity, so the identity of the sequence object itself does not matter. -/
def keycheck : Arg → Arg → Bool
  | .seq ks, .seq as => ks.length == as.length && (ks.zip as).all fun p => p.1 == p.2
  | .seq _, .obj _ => false
  | .obj k, .obj a => k == a
  | .obj _, .seq _ => false

/-- `memoizedfunc`, signal_base.py 53-60.  `memo` is the attribute (absent: `none`); the
attribute is only assigned when the method returns. -/
def memoCall {V : Type} (method : Arg → Except PyErr V) (memo : Option (Arg × V)) (arg : Arg) :
    Option (Arg × V) × Except PyErr V :=
  match memo with
  | some (k, v) =>
    if keycheck k arg then (memo, .ok v)
    else match method arg with
      | .ok w => (some (arg, w), .ok w)
      | .error e => (memo, .error e)
  | none => match method arg with
    | .ok w => (some (arg, w), .ok w)
    | .error e => (memo, .error e)

/-- A history of memoised calls; before each call the heap may have changed, so every call comes
with the method's meaning at that time. -/
def runMemo {V : Type} : List ((Arg → Except PyErr V) × Arg) → Option (Arg × V) →
    Option (Arg × V) × List (Except PyErr V)
  | [], m => (m, [])
  | (f, a) :: t, m =>
    let r := memoCall f m a
    let rest := runMemo t r.1
    (rest.1, r.2 :: rest.2)

/-! ## Families of cached methods calling each other (C33) -/

/-- The body of a method: finished, or a call of another cached method (`c`, parameters `p`)
followed by the rest; an exception of the callee propagates. -/
inductive Prog (C P V : Type)
  | done (r : Except PyErr V)
  | call (c : C) (p : P) (k : V → Prog C P V)

namespace Prog
variable {C P V σ : Type}

/-- Execute a body, `h` executing the calls. -/
def run (h : C → P → σ → σ × Except PyErr V) : Prog C P V → σ → σ × Except PyErr V
  | done r, s => (s, r)
  | call c p k, s =>
    let r := h c p s
    match r.2 with
    | .ok v => run h (k v) r.1
    | .error e => (r.1, .error e)

/-- The meaning of a body when calls have the meaning `h` and nothing is cached. -/
def eval (h : C → P → Except PyErr V) : Prog C P V → Except PyErr V
  | done r => r
  | call c p k =>
    match h c p with
    | .ok v => eval h (k v)
    | .error e => .error e

/-- Call several methods in turn and continue with their results (a list comprehension such as
`[signal.get_ndiag(params) for signal in self._signals]`, signal_base.py 935). -/
def callAll (cs : List C) (p : P) (k : List V → Prog C P V) : Prog C P V :=
  match cs with
  | [] => k []
  | c :: t => call c p fun v => callAll t p fun vs => k (v :: vs)

end Prog

/-- A family of cached methods. -/
structure Family (C P κ V : Type) where
  limit : C → Nat
  key : C → P → κ
  body : C → P → Prog C P V
  rank : C → Nat

section
variable {C P κ V : Type} [DecidableEq C] [DecidableEq κ]

/-- Object state: one cache per method. -/
abbrev FState (C κ V : Type) := C → CState κ V

/-- Calling a method of the family, with a recursion limit. -/
def Family.callN (F : Family C P κ V) : Nat → C → P → FState C κ V →
    FState C κ V × Except PyErr V
  | 0, _, _, s => (s, .error .runtimeError)
  | n + 1, c, p, s =>
    wrap (fun s => s c) (fun s cs => Function.update s c cs) (F.limit c) (F.key c p)
      (fun s => (F.body c p).run (F.callN n) s) s

/-- Uncached meaning. -/
def Family.evalN (F : Family C P κ V) : Nat → C → P → Except PyErr V
  | 0, _, _ => .error .runtimeError
  | n + 1, c, p => (F.body c p).eval (F.evalN n)

/-- One public call. -/
def Family.callTop (F : Family C P κ V) (c : C) (p : P) (s : FState C κ V) :
    FState C κ V × Except PyErr V := F.callN (F.rank c + 1) c p s

/-- What a freshly built object without caches would return. -/
def Family.evalTop (F : Family C P κ V) (c : C) (p : P) : Except PyErr V :=
  F.evalN (F.rank c + 1) c p

/-- A history of public calls on one object. -/
def Family.runHist (F : Family C P κ V) : List (C × P) → FState C κ V →
    FState C κ V × List (Except PyErr V)
  | [], s => (s, [])
  | (c, p) :: t, s =>
    let r := F.callTop c p s
    let rest := F.runHist t r.1
    (rest.1, r.2 :: rest.2)

end

/-! ### The methods of a pulsar model -/

/-- Cached methods of a `SignalCollection` and of its signals (by position). -/
inductive Meth
  | sigNdiag (i : Nat)
  | sigDelay (i : Nat)
  | sigBasis (i : Nat)
  | ndiag | delay | detres | basis | TNr | TNT | rNr
  deriving DecidableEq

/-- What the pulsar-level code does with the values; kept abstract because C33 is about caching:
`sumNdiag`, `sumDelay` (935-936, 940-941), `sub` (945), `assemble` (955-961), `solve` (986, 994,
1000). `isNone` tests `T is None` (982, 991). -/
structure CollOps (V : Type) where
  sumNdiag : List V → V
  sumDelay : List V → V
  sub : V → V → V
  assemble : List V → Except PyErr V
  isNone : V → Bool
  none : V
  solveTNr : V → V → V → Except PyErr V
  solveTNT : V → V → Except PyErr V
  solveRNr : V → V → Except PyErr V

/-- One signal: what its three methods compute without caches, and the parameter names under
which they are cached (`ndiag_params`, `delay_params`, `basis_params`). `delayNames` is the list
used by the signal's own cache of `get_delay`; for GPs with explicit coefficients it is
`basis_params + delay_params` (gp_signals.py 140), whereas the collection only uses
`delay_params` (signal_base.py 807), here `collDelayNames`. -/
structure Sig (K V : Type) where
  ndiag : Params K → Except PyErr V
  delay : Params K → Except PyErr V
  basis : Params K → Except PyErr V
  ndiagNames : List String
  delayNames : List String
  collDelayNames : List String
  basisNames : List String

section
variable {K V : Type}

/-- Names used by the collection's caches, `_set_cache_parameters`, signal_base.py 796-815. -/
def whiteNames (sigs : List (Sig K V)) : List String := sigs.flatMap (·.ndiagNames)
/-- see `whiteNames`. -/
def delayNames (sigs : List (Sig K V)) : List String := sigs.flatMap (·.collDelayNames)
/-- see `whiteNames`. -/
def basisNames (sigs : List (Sig K V)) : List String := sigs.flatMap (·.basisNames)

/-- Parameter names in the key of each method: decorators at signal_base.py 933, 938, 943, 950,
979, 988, 996 and of the signals. -/
def methNames (sigs : List (Sig K V)) : Meth → List String
  | .sigNdiag i => (sigs[i]?.map (·.ndiagNames)).getD []
  | .sigDelay i => (sigs[i]?.map (·.delayNames)).getD []
  | .sigBasis i => (sigs[i]?.map (·.basisNames)).getD []
  | .ndiag => whiteNames sigs
  | .delay => delayNames sigs
  | .detres => delayNames sigs
  | .basis => basisNames sigs
  | .TNr => basisNames sigs ++ whiteNames sigs ++ delayNames sigs
  | .TNT => basisNames sigs ++ whiteNames sigs
  | .rNr => whiteNames sigs ++ delayNames sigs

/-- The bodies, signal_base.py 933-1000. -/
def methBody (ops : CollOps V) (res : V) (sigs : List (Sig K V)) :
    Meth → Params K → Prog Meth (Params K) V
  | .sigNdiag i, p => .done (match sigs[i]? with | some s => s.ndiag p | none => .error .indexError)
  | .sigDelay i, p => .done (match sigs[i]? with | some s => s.delay p | none => .error .indexError)
  | .sigBasis i, p => .done (match sigs[i]? with | some s => s.basis p | none => .error .indexError)
  | .ndiag, p => .callAll ((List.range sigs.length).map .sigNdiag) p fun vs => .done (.ok (ops.sumNdiag vs))
  | .delay, p => .callAll ((List.range sigs.length).map .sigDelay) p fun vs => .done (.ok (ops.sumDelay vs))
  | .detres, p => .call .delay p fun d => .done (.ok (ops.sub res d))
  | .basis, p => .callAll ((List.range sigs.length).map .sigBasis) p fun vs => .done (ops.assemble vs)
  | .TNr, p => .call .basis p fun T =>
      if ops.isNone T then .done (.ok ops.none)
      else .call .ndiag p fun N => .call .detres p fun r => .done (ops.solveTNr N r T)
  | .TNT, p => .call .basis p fun T =>
      if ops.isNone T then .done (.ok ops.none)
      else .call .ndiag p fun N => .done (ops.solveTNT N T)
  | .rNr, p => .call .ndiag p fun N => .call .detres p fun r => .done (ops.solveRNr N r)

/-- Call depth. -/
def methRank : Meth → Nat
  | .sigNdiag _ | .sigDelay _ | .sigBasis _ => 0
  | .ndiag | .delay | .basis => 1
  | .detres => 2
  | .TNr | .TNT | .rNr => 3

/-- Cache sizes: default 2; 1 for the basis (signal_base.py 950, gp_signals.py 96). -/
def methLimit : Meth → Nat
  | .sigBasis _ | .basis => 1
  | _ => 2

/-- A pulsar model as a family of cached methods. -/
def collection (ops : CollOps V) (res : V) (sigs : List (Sig K V)) :
    Family Meth (Params K) (List (String × PVal K)) V where
  limit := methLimit
  key := fun m p => cacheKey (methNames sigs m) p
  body := methBody ops res sigs
  rank := methRank

end

end Verif.Cache
