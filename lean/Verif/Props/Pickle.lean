import Verif.Model.Pickle
import Verif.Lemmas.Dict

/-!
# Dropping timing objects and pickling

C136: `to_pickle` works at any time and loses nothing but the timing objects; the methods that drop the timing objects work once.
-/

namespace Verif.Pickle

open Verif

variable {D : Type}

/-! ## What is expected -/

/-- A new pulsar of one of the two classes. -/
inductive New : Psr D → Prop
  | pint (name : String) (data : D) (dropIt : Bool) : New (mkPint name data dropIt)
  | tempo2 (name : String) (data : D) (dropIt par tim : Bool) : New (mkTempo2 name data dropIt par tim).1

/-- The timing objects. -/
def objects : List String := ["model", "pint_toas", "t2pulsar"]

/-- What is left of a pulsar without its timing objects. -/
def bare (p : Psr D) : Psr D := { p with has := p.has.filter fun a => a ∉ objects }

/-- The system lets the pulsar be saved in `dir`: texts can be pickled, the directory exists or can be made, and the file can be opened. -/
structure Allows (sys : Sys) (disk : Disk D) (dir name : String) : Prop where
  texts : sys.picklable "parfile" = true ∧ sys.picklable "timfile" = true
  directory : dir ∈ disk.dirs ∨ sys.mkdir dir = true
  file : sys.open_ (dir ++ "/" ++ name ++ ".pkl") = true

/-! ## Deleting attributes -/

theorem delAll_ok : ∀ (l has : List String), (∀ a ∈ l, a ∈ has) → l.Nodup → delAll has l = (has.filter fun a => a ∉ l, none) := by
  intro l
  induction l with
  | nil => intro has _ _; simp [delAll]
  | cons a t ih =>
    intro has h hn
    rw [delAll, if_pos (h a (by simp)), ih _ (fun b hb => ?_) (List.nodup_cons.1 hn).2, List.filter_filter]
    · congr 1
      refine List.filter_congr fun b _ => ?_
      simp [not_or, Bool.and_comm]
    · refine List.mem_filter.2 ⟨h b (by simp [hb]), ?_⟩
      have : b ≠ a := fun e => (List.nodup_cons.1 hn).1 (e ▸ hb)
      simpa using this

theorem delAll_missing {has : List String} {a : String} (t : List String) (h : a ∉ has) : delAll has (a :: t) = (has, some .attributeError) := by
  rw [delAll, if_neg h]

/-! ## The states that occur -/

/-- Each timing object that cannot be pickled comes with the first one, and that with all others. -/
structure Good (p : Psr D) : Prop where
  pint : p.kind = .pint → ("pint_toas" ∈ p.has → "model" ∈ p.has) ∧
    ("model" ∈ p.has → "parfile" ∈ p.has ∧ "pint_toas" ∈ p.has ∧ "timfile" ∈ p.has) ∧ ∀ a ∈ p.has, a ∈ ["model", "parfile", "pint_toas", "timfile"]
  tempo2 : p.kind = .tempo2 → ∀ a ∈ p.has, a ∈ ["t2pulsar", "parfile", "timfile"]

theorem New.good {p : Psr D} (h : New p) : Good p := by
  cases h with
  | pint name data d => constructor <;> cases d <;> simp [mkPint]
  | tempo2 name data d par tim => constructor <;> cases d <;> cases par <;> cases tim <;> simp [mkTempo2, drop, delAll]

theorem Good.filter {p : Psr D} (h : Good p) (f : String → Bool) (hf : p.kind = .pint → ∀ a, a = "model" ∨ a = "pint_toas" → f a = false) :
    Good { p with has := p.has.filter f } where
  pint := fun hk => by
    have hk : p.kind = .pint := hk
    have h1 := hf hk "model" (.inl rfl)
    have h2 := hf hk "pint_toas" (.inr rfl)
    refine ⟨fun h => ?_, fun h => ?_, fun a ha => (h.pint hk).2.2 a (List.mem_of_mem_filter ha)⟩
    · have := (List.mem_filter.1 h).2
      rw [h2] at this
      exact absurd this (by simp)
    · have := (List.mem_filter.1 h).2
      rw [h1] at this
      exact absurd this (by simp)
  tempo2 := fun hk a ha => h.tempo2 hk a (List.mem_of_mem_filter ha)

/-- `drop_not_picklable` takes away the timing objects, if there are any, and does not raise. -/
theorem dropNotPicklable_good {p : Psr D} (h : Good p) : dropNotPicklable p = (bare p, none) := by
  obtain ⟨kind, name, has, data⟩ := p
  cases kind with
  | pint =>
    obtain ⟨h1, h2, h3⟩ := h.pint rfl
    simp only at h1 h2 h3
    by_cases hm : "model" ∈ has
    · have hd := delAll_ok ["model", "pint_toas"] has (by simpa using ⟨hm, (h2 hm).2.1⟩) (by decide)
      simp only [dropNotPicklable, bare, hd, suppress]
      congr 2
      refine List.filter_congr fun a ha => ?_
      have := h3 a ha
      simp only [List.mem_cons, List.not_mem_nil, or_false] at this
      rcases this with rfl | rfl | rfl | rfl <;> decide
    · simp only [dropNotPicklable, bare, delAll_missing _ hm, suppress, isAttributeError, if_true]
      congr 2
      refine (List.filter_eq_self.2 fun a ha => ?_).symm
      have := h3 a ha
      simp only [List.mem_cons, List.not_mem_nil, or_false] at this
      rcases this with rfl | rfl | rfl | rfl
      · exact absurd ha hm
      · decide
      · exact absurd (h1 ha) hm
      · decide
  | tempo2 =>
    have h3 := h.tempo2 rfl
    simp only at h3
    by_cases hm : "t2pulsar" ∈ has
    · have hd := delAll_ok ["t2pulsar"] has (by simpa using hm) (by decide)
      simp only [dropNotPicklable, bare, hd, suppress]
      congr 2
      refine List.filter_congr fun a ha => ?_
      have := h3 a ha
      simp only [List.mem_cons, List.not_mem_nil, or_false] at this
      rcases this with rfl | rfl | rfl <;> decide
    · simp only [dropNotPicklable, bare, delAll_missing _ hm, suppress, isAttributeError, if_true]
      congr 2
      refine (List.filter_eq_self.2 fun a ha => ?_).symm
      have := h3 a ha
      simp only [List.mem_cons, List.not_mem_nil, or_false] at this
      rcases this with rfl | rfl | rfl
      · exact absurd ha hm
      · decide
      · decide

/-- What the method that drops the timing package's objects takes away. -/
def dropped : Kind → List String
  | .pint => ["model", "parfile", "pint_toas", "timfile"]
  | .tempo2 => ["t2pulsar"]

theorem drop_good {p : Psr D} (h : Good p) : drop p =
    if ∃ a ∈ objects, a ∈ p.has then ({ p with has := p.has.filter fun a => a ∉ dropped p.kind }, none) else (p, some .attributeError) := by
  obtain ⟨kind, name, has, data⟩ := p
  cases kind with
  | pint =>
    obtain ⟨h1, h2, h3⟩ := h.pint rfl
    simp only at h1 h2 h3
    by_cases hm : "model" ∈ has
    · have hd := delAll_ok ["model", "parfile", "pint_toas", "timfile"] has (by simpa using ⟨hm, (h2 hm)⟩) (by decide)
      rw [if_pos ⟨"model", by simp [objects], hm⟩]
      simp only [drop, dropped, hd, suppress]
      rfl
    · rw [if_neg]
      · simp only [drop, delAll_missing _ hm, suppress, isNameError]
        rfl
      · rintro ⟨a, ha, hin⟩
        simp only [objects, List.mem_cons, List.not_mem_nil, or_false] at ha
        rcases ha with rfl | rfl | rfl
        · exact hm hin
        · exact hm (h1 hin)
        · have := h3 _ hin
          revert this
          decide
  | tempo2 =>
    have h3 := h.tempo2 rfl
    simp only at h3
    by_cases hm : "t2pulsar" ∈ has
    · have hd := delAll_ok ["t2pulsar"] has (by simpa using hm) (by decide)
      rw [if_pos ⟨"t2pulsar", by simp [objects], hm⟩]
      simp only [drop, dropped, hd, suppress]
      rfl
    · rw [if_neg]
      · simp only [drop, delAll_missing _ hm, suppress, isNameError]
        rfl
      · rintro ⟨a, ha, hin⟩
        simp only [objects, List.mem_cons, List.not_mem_nil, or_false] at ha
        rcases ha with rfl | rfl | rfl
        · have := h3 _ hin
          revert this
          decide
        · have := h3 _ hin
          revert this
          decide
        · exact hm hin

theorem bare_good {p : Psr D} (h : Good p) : Good (bare p) := h.filter _ fun _ a ha => by
  rcases ha with rfl | rfl <;> decide

theorem toPickle_psr {sys : Sys} {disk : Disk D} {p : Psr D} (h : Good p) (o : Option String) : (toPickle sys disk p o).1 = bare p := by
  simp only [toPickle, dropNotPicklable_good h]
  split <;> rfl

theorem step_good {sys : Sys} {s : Psr D × Disk D} (h : Good s.1) (op : Op) : Good (step sys s op).1 ∧ (step sys s op).1.name = s.1.name ∧
    (step sys s op).1.data = s.1.data ∧ (step sys s op).1.kind = s.1.kind := by
  cases op with
  | drop =>
    simp only [step, drop_good h]
    split
    · refine ⟨h.filter _ fun hk a ha => ?_, rfl, rfl, rfl⟩
      rw [hk]
      rcases ha with rfl | rfl <;> decide
    · exact ⟨h, rfl, rfl, rfl⟩
  | dropNotPicklable =>
    simp only [step, dropNotPicklable_good h]
    exact ⟨bare_good h, rfl, rfl, rfl⟩
  | toPickle o =>
    simp only [step, toPickle_psr h]
    exact ⟨bare_good h, rfl, rfl, rfl⟩

theorem run_good {sys : Sys} {p : Psr D} (h : Good p) (disk : Disk D) (ops : List Op) :
    Good (ops.foldl (step sys) (p, disk)).1 ∧ (ops.foldl (step sys) (p, disk)).1.name = p.name ∧
      (ops.foldl (step sys) (p, disk)).1.data = p.data ∧ (ops.foldl (step sys) (p, disk)).1.kind = p.kind := by
  induction ops generalizing p disk with
  | nil => exact ⟨h, rfl, rfl, rfl⟩
  | cons op ops ih =>
    have h1 := step_good (sys := sys) (s := (p, disk)) h op
    have h2 := ih (p := (step sys (p, disk) op).1) h1.1 (step sys (p, disk) op).2
    exact ⟨h2.1, h2.2.1.trans h1.2.1, h2.2.2.1.trans h1.2.2.1, h2.2.2.2.trans h1.2.2.2⟩

/-! ## The properties -/

/-- C136, the part that holds: whatever of the calls was made before on a new pulsar, and whether or not they raised, `to_pickle` does not raise,
takes away the timing objects only, and writes the pulsar as it then is to its own file only, making no directory but that of the file.  Loading
that file gives it back. -/
theorem C136_pickle_partial (sys : Sys) {p : Psr D} (hp : New p) (disk : Disk D) (ops : List Op) (outdir : Option String) :
    let s := ops.foldl (step sys) (p, disk)
    Allows sys s.2 (outdir.getD sys.cwd) p.name →
    ∃ disk', toPickle sys s.2 s.1 outdir = (bare s.1, disk', none) ∧
      (bare s.1).data = p.data ∧ (bare s.1).name = p.name ∧ (∀ a ∈ (bare s.1).has, a = "parfile" ∨ a = "timfile") ∧
      load disk' (outdir.getD sys.cwd ++ "/" ++ p.name ++ ".pkl") = .ok (bare s.1) ∧
      (∀ f, f ≠ outdir.getD sys.cwd ++ "/" ++ p.name ++ ".pkl" → disk'.files.get? f = s.2.files.get? f) ∧
      ∀ d, d ∈ disk'.dirs ↔ d ∈ s.2.dirs ∨ d = outdir.getD sys.cwd := by
  intro s hA
  obtain ⟨h1, h2, h3, h4⟩ := run_good (sys := sys) hp.good disk ops
  change Good s.1 at h1
  change s.1.name = p.name at h2
  change s.1.data = p.data at h3
  have hhas : ∀ a ∈ (bare s.1).has, a = "parfile" ∨ a = "timfile" := by
    intro a ha
    obtain ⟨ha1, ha2⟩ := List.mem_filter.1 ha
    cases hk : s.1.kind with
    | pint =>
      have := (h1.pint hk).2.2 a ha1
      simp only [List.mem_cons, List.not_mem_nil, or_false] at this
      rcases this with rfl | rfl | rfl | rfl
      · exact absurd ha2 (by decide)
      · exact .inl rfl
      · exact absurd ha2 (by decide)
      · exact .inr rfl
    | tempo2 =>
      have := h1.tempo2 hk a ha1
      simp only [List.mem_cons, List.not_mem_nil, or_false] at this
      rcases this with rfl | rfl | rfl
      · exact absurd ha2 (by decide)
      · exact .inl rfl
      · exact .inr rfl
  have hall : (bare s.1).has.all sys.picklable = true := by
    rw [List.all_eq_true]
    intro a ha
    rcases hhas a ha with rfl | rfl
    · exact hA.texts.1
    · exact hA.texts.2
  obtain ⟨disk1, hd1, hd2, hd3⟩ : ∃ disk1, makeDir sys s.2 (outdir.getD sys.cwd) = .ok disk1 ∧ disk1.files = s.2.files ∧
      ∀ d, d ∈ disk1.dirs ↔ d ∈ s.2.dirs ∨ d = outdir.getD sys.cwd := by
    unfold makeDir
    by_cases hin : outdir.getD sys.cwd ∈ s.2.dirs
    · exact ⟨_, if_pos hin, rfl, fun d => ⟨.inl, fun h => h.elim id fun e => e ▸ hin⟩⟩
    · rw [if_neg hin, if_pos (hA.directory.resolve_left hin)]
      exact ⟨_, rfl, rfl, fun d => by simp⟩
  have hname : (bare s.1).name = p.name := h2
  refine ⟨{ disk1 with files := disk1.files.set (outdir.getD sys.cwd ++ "/" ++ p.name ++ ".pkl") (.whole (bare s.1)) }, ?_, h3, h2, hhas, ?_,
    fun f hf => ?_, hd3⟩
  · simp only [toPickle, dropNotPicklable_good h1, hd1, dump, path, hname, hA.file, hall, if_true]
  · simp only [load, Dict.get?_set_self]
  · simp only [Dict.get?_set_ne _ _ (Ne.symm hf), hd2]

/-- C136, the part that holds: the method that drops the timing objects works if and only if they are still there, and then takes all of them
away. -/
theorem C136_drop_partial (sys : Sys) {p : Psr D} (hp : New p) (disk : Disk D) (ops : List Op) :
    let q := (ops.foldl (step sys) (p, disk)).1
    ((drop q).2 = none ↔ ∃ a ∈ objects, a ∈ q.has) ∧ ((drop q).2 = none → ∀ a ∈ objects, a ∉ (drop q).1.has) ∧
      (drop q).1.data = p.data ∧ (drop q).1.name = p.name := by
  intro q
  obtain ⟨h1, h2, h3, h4⟩ := run_good (sys := sys) hp.good disk ops
  change Good q at h1
  rw [drop_good h1]
  by_cases h : ∃ a ∈ objects, a ∈ q.has
  · rw [if_pos h]
    refine ⟨⟨fun _ => h, fun _ => rfl⟩, fun _ a ha hin => ?_, h3, h2⟩
    obtain ⟨ha1, ha2⟩ := List.mem_filter.1 hin
    simp only [objects, List.mem_cons, List.not_mem_nil, or_false] at ha
    cases hk : q.kind with
    | pint =>
      rw [hk] at ha2
      rcases ha with rfl | rfl | rfl
      · exact absurd ha2 (by decide)
      · exact absurd ha2 (by decide)
      · have := (h1.pint hk).2.2 _ ha1
        revert this
        decide
    | tempo2 =>
      rw [hk] at ha2
      have := h1.tempo2 hk a ha1
      rcases ha with rfl | rfl | rfl
      · revert this
        decide
      · revert this
        decide
      · exact absurd ha2 (by decide)
  · rw [if_neg h]
    exact ⟨⟨fun h => (by simp at h), fun h' => absurd h' h⟩, fun h => (by simp at h), h3, h2⟩

/-- C136 is false of the methods that drop the timing objects: they catch `NameError`, which `del` of an attribute does not raise.  With the default
arguments, where the objects have been dropped already, they raise `AttributeError`; and so they do after `to_pickle`, which leaves the texts of
the par and tim files in the pulsar. -/
theorem C136_drop_false (sys : Sys) (disk : Disk D) (name : String) (data : D) (par tim : Bool) (outdir : Option String) :
    (drop (mkPint name data true)).2 = some .attributeError ∧ (drop (mkTempo2 name data true par tim).1).2 = some .attributeError ∧
    ∃ q : Psr D, q = (toPickle sys disk (mkPint name data false) outdir).1 ∧ (drop q).2 = some .attributeError ∧
      "parfile" ∈ (drop q).1.has ∧ "timfile" ∈ (drop q).1.has := by
  refine ⟨by simp [drop, mkPint, delAll, suppress, isNameError], by simp [drop, mkTempo2, delAll, suppress, isNameError], _, rfl, ?_⟩
  rw [toPickle_psr (New.pint name data false).good, drop_good (bare_good (New.pint name data false).good)]
  simp [bare, mkPint, objects]

/-- C136 is false of saving as a whole: if the file cannot be opened, `to_pickle` raises, but the timing objects are gone. -/
theorem C136_unsaved_false (sys : Sys) (disk : Disk D) (name dir : String) (data : D) (hd : dir ∈ disk.dirs) (ho : sys.open_ (dir ++ "/" ++ name ++ ".pkl") = false) :
    "model" ∈ (mkPint name data false).has ∧
      toPickle sys disk (mkPint name data false) (some dir) = (bare (mkPint name data false), disk, some .ioError) ∧
      "model" ∉ (bare (mkPint name data false)).has := by
  refine ⟨by simp [mkPint], ?_, by simp [bare, mkPint, objects]⟩
  simp only [toPickle, dropNotPicklable_good (New.pint name data false).good, Option.getD_some, makeDir, hd, if_true, dump]
  rw [if_neg]
  show ¬ sys.open_ (dir ++ "/" ++ name ++ ".pkl") = true
  simp [ho]

/-- C136 is false if the user has deleted `psr.model` by hand: the next `del` is skipped with it, so that `to_pickle` raises and leaves a broken
file in the place of an earlier good one. -/
theorem C136_by_hand_false (sys : Sys) (disk : Disk D) (name dir : String) (data : D) (hd : dir ∈ disk.dirs) (ho : sys.open_ (dir ++ "/" ++ name ++ ".pkl") = true)
    (hp : sys.picklable "pint_toas" = false) :
    let p : Psr D := ⟨.pint, name, ["parfile", "pint_toas", "timfile"], data⟩
    (toPickle sys disk p (some dir)).1 = p ∧ (toPickle sys disk p (some dir)).2.2 = some .typeError ∧
      load (toPickle sys disk p (some dir)).2.1 (dir ++ "/" ++ name ++ ".pkl") = .error .other := by
  have h1 : delAll ["parfile", "pint_toas", "timfile"] ["model", "pint_toas"] = (["parfile", "pint_toas", "timfile"], some .attributeError) :=
    delAll_missing _ (by simp)
  simp [toPickle, dropNotPicklable, h1, suppress, isAttributeError, makeDir, hd, dump, path, ho, hp, load, Dict.get?_set_self]

/-- A pulsar with its timing objects is saved, dropped from (which raises) and saved again in another directory. -/
example (data : D) : ∃ disk', toPickle ⟨"/w", fun a => a ∉ objects, fun _ => true, fun _ => true⟩
      ([Op.toPickle none, .drop].foldl (step ⟨"/w", fun a => a ∉ objects, fun _ => true, fun _ => true⟩)
        (mkPint "J0030+0451" data false, ⟨[], ["/w"]⟩)).2
      ([Op.toPickle none, .drop].foldl (step ⟨"/w", fun a => a ∉ objects, fun _ => true, fun _ => true⟩)
        (mkPint "J0030+0451" data false, ⟨[], ["/w"]⟩)).1 (some "/tmp/out") =
      (bare ([Op.toPickle none, .drop].foldl (step ⟨"/w", fun a => a ∉ objects, fun _ => true, fun _ => true⟩)
        (mkPint "J0030+0451" data false, ⟨[], ["/w"]⟩)).1, disk', none) := by
  obtain ⟨disk', h, -⟩ := C136_pickle_partial ⟨"/w", fun a => a ∉ objects, fun _ => true, fun _ => true⟩
    (New.pint "J0030+0451" data false) ⟨[], ["/w"]⟩ [.toPickle none, .drop] (some "/tmp/out") ⟨by decide, .inr rfl, rfl⟩
  exact ⟨disk', h⟩

end Verif.Pickle
