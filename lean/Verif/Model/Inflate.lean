import Verif.Model.Basic

/-!
# Shared-memory pulsars (`enterprise/pulsar.py` 639-663, `enterprise/pulsar_inflate.py`)

Shared memory has POSIX semantics: an object exists from creation on and can be opened by name
while it is linked; mappings made before `unlink` stay valid.  Names are never reused (Python
draws them at random), so an object's number serves as its name.
-/

namespace Verif.Inflate

open Verif

/-- The value of one of the attributes listed in `_todeflate` (pulsar.py 638): an ndarray, something
that is not an array (`None`, a dictionary of flags), a `PulsarInflater` for a shared object, or
a view of a mapped shared object. -/
inductive AVal (D : Type)
  | arr (d : D)
  | other (d : D)
  | infl (id : Nat)
  | view (id : Nat)

/-- `_deflated`, pulsar.py 639. -/
inductive St
  | pristine | deflated | inflated | destroyed
  deriving DecidableEq

/-- The shared memory of the machine: contents of all objects ever created, and those linked. -/
structure Mem (D : Type) where
  objs : List D
  linked : List Nat

/-- A pulsar object in some process: the deflatable attributes, in order, and the state. -/
structure Psr (D : Type) where
  attrs : List (AVal D)
  st : St

variable {D : Type}

/-- `PulsarInflater(array)`, pulsar_inflate.py 37-48: a new linked object with the array's content. -/
def alloc (m : Mem D) (d : D) : Mem D × Nat :=
  ({ objs := m.objs ++ [d], linked := m.objs.length :: m.linked }, m.objs.length)

/-- Body of the loop of `deflate`, pulsar.py 644-645.  `fault`: the system refuses (no memory,
zero size).  A view is an ndarray too. -/
def deflateAttr (fault : Bool) (m : Mem D) : AVal D → Mem D × Except PyErr (AVal D)
  | .arr d => if fault then (m, .error .other) else ((alloc m d).1, .ok (.infl (alloc m d).2))
  | .view id =>
    match m.objs[id]? with
    | some d => if fault then (m, .error .other) else ((alloc m d).1, .ok (.infl (alloc m d).2))
    | none => (m, .error .other)
  | .other d => (m, .ok (.other d))
  | .infl id => (m, .ok (.infl id))

/-- Body of the loop of `inflate`, pulsar.py 652-653 and pulsar_inflate.py 50-56: open by name. -/
def inflateAttr (fault : Bool) (m : Mem D) : AVal D → Except PyErr (AVal D)
  | .infl id =>
    if fault then .error .other
    else if id ∈ m.linked then .ok (.view id) else .error .fileNotFoundError
  | a => .ok a

/-- Body of the loop of `destroy`, pulsar.py 660-661 and pulsar_inflate.py 58-60: open, unlink. -/
def destroyAttr (fault : Bool) (m : Mem D) : AVal D → Except PyErr (Mem D)
  | .infl id =>
    if fault then .error .other
    else if id ∈ m.linked then .ok { m with linked := m.linked.filter (· ≠ id) }
    else .error .fileNotFoundError
  | _ => .ok m

/-- The loop of `deflate`; `fault i` says the `i`-th attribute fails.  On an exception the rest is
left as it was. -/
def deflateLoop (fault : Nat → Bool) : Nat → Mem D → List (AVal D) → Mem D × List (AVal D) × Option PyErr
  | _, m, [] => (m, [], none)
  | i, m, a :: t =>
    match deflateAttr (fault i) m a with
    | (m', .ok a') =>
      let r := deflateLoop fault (i + 1) m' t
      (r.1, a' :: r.2.1, r.2.2)
    | (_, .error e) => (m, a :: t, some e)

/-- `deflate`, pulsar.py 641-647. -/
def deflate (fault : Nat → Bool) (m : Mem D) (p : Psr D) : Mem D × Psr D × Option PyErr :=
  if p.st = .pristine then
    let r := deflateLoop fault 0 m p.attrs
    (r.1, { attrs := r.2.1, st := if r.2.2 = none then .deflated else p.st }, r.2.2)
  else (m, p, none)

/-- The loop of `inflate`. -/
def inflateLoop (fault : Nat → Bool) (m : Mem D) : Nat → List (AVal D) → List (AVal D) × Option PyErr
  | _, [] => ([], none)
  | i, a :: t =>
    match inflateAttr (fault i) m a with
    | .ok a' =>
      let r := inflateLoop fault m (i + 1) t
      (a' :: r.1, r.2)
    | .error e => (a :: t, some e)

/-- `inflate`, pulsar.py 649-655. -/
def inflate (fault : Nat → Bool) (m : Mem D) (p : Psr D) : Psr D × Option PyErr :=
  if p.st = .deflated then
    let r := inflateLoop fault m 0 p.attrs
    ({ attrs := r.1, st := if r.2 = none then .inflated else p.st }, r.2)
  else (p, none)

/-- The loop of `destroy`. -/
def destroyLoop (fault : Nat → Bool) : Nat → Mem D → List (AVal D) → Mem D × Option PyErr
  | _, m, [] => (m, none)
  | i, m, a :: t =>
    match destroyAttr (fault i) m a with
    | .ok m' => destroyLoop fault (i + 1) m' t
    | .error e => (m, some e)

/-- `destroy`, pulsar.py 657-663. -/
def destroy (fault : Nat → Bool) (m : Mem D) (p : Psr D) : Mem D × Psr D × Option PyErr :=
  if p.st = .deflated then
    let r := destroyLoop fault 0 m p.attrs
    (r.1, { p with st := if r.2 = none then .destroyed else p.st }, r.2)
  else (m, p, none)

/-- Pickling and unpickling one attribute: inflaters carry only their metadata; arrays and views
are copied by value (pickling an ndarray subclass drops its instance attributes). -/
def pickleAttr (m : Mem D) : AVal D → AVal D
  | .view id =>
    match m.objs[id]? with
    | some d => .arr d
    | none => .view id
  | a => a

/-- A pulsar sent to another process by pickling. -/
def pickle (m : Mem D) (p : Psr D) : Psr D := { p with attrs := p.attrs.map (pickleAttr m) }

/-! ## Concurrent executions

All pulsar objects of all processes, and the memory.  One step is one loop body, or setting the
state at the end of a loop, or a pickle; steps of different objects interleave freely. -/

/-- All processes. -/
structure World (D : Type) where
  mem : Mem D
  psrs : List (Psr D)

/-- One atomic step. -/
inductive Step : World D → World D → Prop
  | deflAttr (w : World D) (i j : Nat) (p : Psr D) (a a' : AVal D) (m' : Mem D)
      (hp : w.psrs[i]? = some p) (hs : p.st = .pristine) (ha : p.attrs[j]? = some a)
      (h : deflateAttr false w.mem a = (m', .ok a')) :
      Step w ⟨m', w.psrs.set i { p with attrs := p.attrs.set j a' }⟩
  | deflDone (w : World D) (i : Nat) (p : Psr D) (hp : w.psrs[i]? = some p) (hs : p.st = .pristine) :
      Step w ⟨w.mem, w.psrs.set i { p with st := .deflated }⟩
  | inflAttr (w : World D) (i j : Nat) (p : Psr D) (a a' : AVal D)
      (hp : w.psrs[i]? = some p) (hs : p.st = .deflated) (ha : p.attrs[j]? = some a)
      (h : inflateAttr false w.mem a = .ok a') :
      Step w ⟨w.mem, w.psrs.set i { p with attrs := p.attrs.set j a' }⟩
  | inflDone (w : World D) (i : Nat) (p : Psr D) (hp : w.psrs[i]? = some p) (hs : p.st = .deflated)
      (hall : ∀ a ∈ p.attrs, ∀ id, a ≠ .infl id) :
      Step w ⟨w.mem, w.psrs.set i { p with st := .inflated }⟩
  | destAttr (w : World D) (i j : Nat) (p : Psr D) (a : AVal D) (m' : Mem D)
      (hp : w.psrs[i]? = some p) (hs : p.st = .deflated) (ha : p.attrs[j]? = some a)
      (h : destroyAttr false w.mem a = .ok m') :
      Step w ⟨m', w.psrs⟩
  | destDone (w : World D) (i : Nat) (p : Psr D) (hp : w.psrs[i]? = some p) (hs : p.st = .deflated) :
      Step w ⟨w.mem, w.psrs.set i { p with st := .destroyed }⟩
  | copy (w : World D) (i : Nat) (p : Psr D) (hp : w.psrs[i]? = some p) :
      Step w ⟨w.mem, w.psrs ++ [pickle w.mem p]⟩

/-- Any number of steps. -/
inductive Steps : World D → World D → Prop
  | refl (w : World D) : Steps w w
  | tail {w w' w'' : World D} (h : Steps w w') (s : Step w' w'') : Steps w w''

end Verif.Inflate
