import Verif.Model.Loader
import Mathlib.Data.List.Infix

/-! # C24, C25, C78, C79: loading pulsars from files -/

set_option linter.unusedSectionVars false

namespace Verif.Loader

open Verif

variable {R T P N Q : Type}

/-! ## C24: the working directory -/

/-- C24: on the par/tim route, whatever the timing packages do (change directory, raise, change the
file system) and whatever happens before, the working directory afterwards is the one before,
whether a pulsar is returned or an exception is raised — as long as that directory can still be
entered. -/
theorem C24_cwd_restored (env : Env R T P N Q) (kw : Kw) (par tim : String) (w : W R)
    (hback : ∀ w' : W R, w'.isDir w.cwd) :
    (loadFiles env kw par tim w).2.cwd = w.cwd := by
  unfold loadFiles
  split
  · rfl
  · dsimp only
    cases package env kw with
    | error e => rfl
    | ok pkg =>
      dsimp only
      unfold tryFinally chdirBack
      simp only [hback, if_true]

/-- C24: the `finally` clause does not change the outcome: the pulsar or the exception is that of
the loading code. -/
theorem C24_outcome (env : Env R T P N Q) (kw : Kw) (par tim : String) (w : W R)
    (hback : ∀ w' : W R, w'.isDir w.cwd)
    (hpar : w.isFile (resolve w (parse par))) (htim : w.isFile (resolve w (parse tim)))
    (pkg : String) (hpkg : package env kw = .ok pkg) :
    (loadFiles env kw par tim w).1 =
      (loadBody env kw w.cwd pkg (dirOf (parse tim)) (relpath w.cwd (parse par) (dirOf (parse tim)))
        (baseOf (parse tim)) w).1 := by
  unfold loadFiles
  simp only [hpar, htim, not_true, or_self, if_false, hpkg]
  unfold tryFinally chdirBack
  simp only [hback, if_true]

/-- C24, the other case: if the old directory is gone at the end, `FileNotFoundError` is raised,
whatever the loading code did. -/
theorem C24_directory_gone (env : Env R T P N Q) (kw : Kw) (par tim : String) (w : W R)
    (hpar : w.isFile (resolve w (parse par))) (htim : w.isFile (resolve w (parse tim)))
    (pkg : String) (hpkg : package env kw = .ok pkg)
    (hgone : (loadBody env kw w.cwd pkg (dirOf (parse tim)) (relpath w.cwd (parse par) (dirOf (parse tim)))
        (baseOf (parse tim)) w).2.isDir w.cwd = false) :
    (loadFiles env kw par tim w).1 = .error .fileNotFoundError := by
  unfold loadFiles
  simp only [hpar, htim, not_true, or_self, if_false, hpkg]
  unfold tryFinally chdirBack
  simp only [hgone, Bool.false_eq_true, if_false]

/-- A timing package that changes directory and raises. -/
def badEnv : Env Unit Unit Unit Unit Unit where
  t2 := true
  pint := true
  readFeather _ := M.pure ()
  mkPint _ _ := M.pure ()
  mkTempo2 _ := M.pure ()
  maxobs _ := M.pure 3
  tempopulsar _ _ _ := M.bind (chdir ⟨true, ["tmp"]⟩) fun _ => raise .runtimeError
  modelAndToas _ _ _ := M.pure ((), ())

def someWorld : W Unit := ⟨["home", "user"], fun _ => none, fun _ => true, fun _ => true, ()⟩

example : (loadFiles badEnv {} "data/x.par" "data/x.tim" someWorld).1 = .error .runtimeError ∧
    (loadFiles badEnv {} "data/x.par" "data/x.tim" someWorld).2.cwd = ["home", "user"] := by
  decide +kernel

/-! ## C78: the file names given to the timing package -/

theorem foldl_lexStep_plain (d q : Path) (h : ∀ c ∈ q, c ≠ "..") : q.foldl lexStep d = d ++ q := by
  induction q generalizing d with
  | nil => simp
  | cons c t ih =>
    simp only [List.foldl_cons]
    rw [ih _ fun x hx => h x (by simp [hx])]
    simp [lexStep, h c (by simp)]

theorem foldl_lexStep_clean (d q : Path) (h : ∀ c ∈ d, c ≠ "..") : ∀ c ∈ q.foldl lexStep d, c ≠ ".." := by
  induction q generalizing d with
  | nil => exact h
  | cons c t ih =>
    simp only [List.foldl_cons]
    apply ih
    intro x hx
    unfold lexStep at hx
    split at hx
    · exact h x (List.mem_of_mem_dropLast hx)
    · rename_i hc
      rcases List.mem_append.1 hx with hx | hx
      · exact h x hx
      · simp at hx; subst hx; exact hc

theorem foldl_lexStep_up (d : Path) (n : Nat) :
    (List.replicate n "..").foldl lexStep d = d.take (d.length - n) := by
  induction n generalizing d with
  | zero => simp
  | succ n ih =>
    rw [List.replicate_succ, List.foldl_cons]
    have : lexStep d ".." = d.dropLast := by simp [lexStep]
    rw [this, ih, List.dropLast_eq_take, List.take_take, List.length_take]
    congr 1
    omega

theorem commonLen_take (s t : Path) : s.take (commonLen s t) = t.take (commonLen s t) := by
  induction s generalizing t with
  | nil => cases t <;> simp [commonLen]
  | cons a s ih =>
    cases t with
    | nil => simp [commonLen]
    | cons b t =>
      unfold commonLen
      split
      · rename_i h; subst h; simp [ih t]
      · simp

theorem commonLen_le (s t : Path) : commonLen s t ≤ s.length := by
  induction s generalizing t with
  | nil => cases t <;> simp [commonLen]
  | cons a s ih =>
    cases t with
    | nil => simp [commonLen]
    | cons b t =>
      unfold commonLen
      split
      · simpa using ih t
      · simp

theorem walk_no_links (w : W R) (hl : ∀ q, w.links q = none) (d q : Path) :
    q.foldl (walkStep w) d = q.foldl lexStep d := by
  induction q generalizing d with
  | nil => rfl
  | cons c t ih =>
    have : walkStep w d c = lexStep d c := by simp [walkStep, lexStep, hl]
    simp only [List.foldl_cons, this, ih]

theorem resolve_no_links (w : W R) (hl : ∀ q, w.links q = none) (hc : ∀ c ∈ w.cwd, c ≠ "..") (p : PathArg) :
    resolve w p = abspath w.cwd p := by
  unfold resolve abspath
  rw [walk_no_links w hl]
  cases p.abs with
  | true => rfl
  | false => simp [foldl_lexStep_plain [] w.cwd hc]

/-- C78: without symbolic links, after changing into the tim file's directory, the two names passed
to the timing package refer to exactly the files the caller named, for every working directory
and every relative or absolute way of writing the two names (including `..`). -/
theorem C78_names_refer_partial (w : W R) (hl : ∀ q, w.links q = none) (hc : ∀ c ∈ w.cwd, c ≠ "..")
    (par tim : PathArg) :
    resolve { w with cwd := resolve w (dirOf tim) } (relpath w.cwd par (dirOf tim)) = resolve w par ∧
    resolve { w with cwd := resolve w (dirOf tim) } (baseOf tim) = resolve w tim := by
  constructor
  · rw [resolve_no_links w hl hc par]
    have hdir := resolve_no_links w hl hc (dirOf tim)
    rw [hdir]
    unfold relpath resolve
    dsimp only
    rw [if_neg (by simp), walk_no_links _ (by exact hl), List.foldl_append]
    set s := abspath w.cwd (dirOf tim) with hs
    set q := abspath w.cwd par with hq
    rw [foldl_lexStep_up]
    have hle := commonLen_le s q
    have : s.length - (s.length - commonLen s q) = commonLen s q := by omega
    rw [this, foldl_lexStep_plain, commonLen_take, List.take_append_drop]
    intro c hcq
    have hqc : ∀ c ∈ q, c ≠ ".." := by
      rw [hq]; unfold abspath
      apply foldl_lexStep_clean
      apply foldl_lexStep_clean
      simp
    exact hqc c (List.mem_of_mem_drop hcq)
  · unfold resolve baseOf dirOf
    simp only [Bool.false_eq_true, if_false]
    rw [walk_no_links _ (by exact hl), walk_no_links w hl, walk_no_links w hl,
      ← List.foldl_append]
    congr 1
    rw [List.dropLast_eq_take, List.take_append_drop]

/-- C78 is false with symbolic links: the par file name is computed lexically, so when the tim
file's directory is reached through a link, another file is opened. -/
theorem C78_symlink_false :
    let w : W Unit := ⟨["home"], fun q => if q = ["data", "link"] then some ["disk", "run1"] else none,
      fun _ => true, fun _ => true, ()⟩
    let par := parse "/data/x.par"
    let tim := parse "/data/link/x.tim"
    resolve w par = ["data", "x.par"] ∧
    resolve { w with cwd := resolve w (dirOf tim) } (relpath w.cwd par (dirOf tim)) = ["disk", "x.par"] := by
  decide +kernel

/-- The tim file itself is always found, also through links. -/
theorem C78_tim_always (w : W R) (tim : PathArg) :
    resolve { w with cwd := resolve w (dirOf tim) } (baseOf tim) = resolve w tim := by
  unfold resolve baseOf dirOf
  simp only [Bool.false_eq_true, if_false]
  have : walkStep { w with cwd := tim.comps.dropLast.foldl (walkStep w) (if tim.abs then [] else w.cwd) } =
      walkStep w := rfl
  rw [this, ← List.foldl_append, List.dropLast_eq_take, List.take_append_drop]

example : relpath ["home", "user"] (parse "../data/par/x.par") (dirOf (parse "tims/a/x.tim")) =
    parse "../../../data/par/x.par" := by decide +kernel

/-! ## C79: which loader is used -/

/-- C79: a feather file among the arguments wins over everything else, the first one. -/
theorem C79_feather_first (env : Env R T P N Q) (args : List (Arg T P N)) (kw : Kw) (f : String)
    (fs : List String) (h : feathers args = f :: fs) : pulsar env args kw = env.readFeather f := by
  unfold pulsar
  rw [h]

/-- C79: then the keyword `filepath`, unless empty. -/
theorem C79_filepath (env : Env R T P N Q) (args : List (Arg T P N)) (kw : Kw) (f : String)
    (h : feathers args = []) (hk : kw.filepath = some f) (hf : f ≠ "") :
    pulsar env args kw = env.readFeather f := by
  unfold pulsar
  rw [h, hk]
  simp [Option.filter, hf]

/-- C79: an empty `filepath` counts as not given. -/
theorem C79_empty_filepath (env : Env R T P N Q) (args : List (Arg T P N)) (kw : Kw)
    (hk : kw.filepath = some "") :
    pulsar env args kw = pulsar env args { kw with filepath := none } := by
  unfold pulsar
  rw [hk]
  cases feathers args <;> rfl

theorem splitAt1_no (c : Char) (b : List Char) (hb : c ∉ b) : splitAt1 c b = [b] := by
  induction b with
  | nil => rfl
  | cons d t ih =>
    have hd : d ≠ c := by rintro rfl; exact hb (by simp)
    have ht := ih fun h => hb (by simp [h])
    simp [splitAt1, hd, ht]

theorem splitAt1_last (c : Char) (a b : List Char) (hb : c ∉ b) :
    (splitAt1 c (a ++ c :: b)).getLast? = some b := by
  induction a with
  | nil => simp [splitAt1, splitAt1_no c b hb]
  | cons d t ih =>
    simp only [List.cons_append, splitAt1]
    split
    · rw [List.getLast?_cons, ih]; rfl
    · cases h : splitAt1 c (t ++ c :: b) with
      | nil => rw [h] at ih; cases ih
      | cons x r =>
        rw [h] at ih
        have : r ≠ [] ∨ r = [] := (eq_or_ne r []).symm
        rcases this with hr | hr
        · obtain ⟨y, ys, rfl⟩ := List.exists_cons_of_ne_nil hr
          simpa using ih
        · subst hr
          -- a single part would mean there is no separator
          exfalso
          have hlen : ∀ l : List Char, 2 ≤ (splitAt1 c (l ++ c :: b)).length := by
            intro l
            induction l with
            | nil => simp [splitAt1, splitAt1_no c b hb]
            | cons e l ihl =>
              simp only [List.cons_append, splitAt1]
              split
              · simp only [List.length_cons]; omega
              · cases hs : splitAt1 c (l ++ c :: b) with
                | nil => rw [hs] at ihl; simp at ihl
                | cons u v => rw [hs] at ihl; simpa using ihl
          have := hlen t
          rw [h] at this
          simp at this

/-- The extension is what follows the last dot. -/
theorem ext_spec (a b : List Char) (hb : '.' ∉ b) : ext (String.ofList (a ++ '.' :: b)) = String.ofList b := by
  unfold ext pySplit
  rw [String.toList_ofList, List.getLast?_map, splitAt1_last '.' a b hb]
  rfl

/-- The text of a path with these components. -/
def spell : List String → List Char
  | [] => []
  | [c] => c.toList
  | c :: d :: t => c.toList ++ '/' :: spell (d :: t)

theorem splitAt1_spell (cs : List String) (hne : cs ≠ []) (h : ∀ c ∈ cs, '/' ∉ c.toList) : splitAt1 '/' (spell cs) = cs.map String.toList := by
  have key : ∀ (a b : List Char), '/' ∉ a → splitAt1 '/' (a ++ '/' :: b) = a :: splitAt1 '/' b := by
    intro a b ha
    induction a with
    | nil => simp [splitAt1]
    | cons x t ih =>
      have hx : x ≠ '/' := fun hx => ha (by simp [hx])
      have := ih fun hx => ha (List.mem_cons_of_mem _ hx)
      simp [splitAt1, hx, this]
  induction cs with
  | nil => exact absurd rfl hne
  | cons c t ih =>
    cases t with
    | nil => simpa [spell] using splitAt1_no '/' c.toList (h c (by simp))
    | cons d t =>
      rw [spell, key _ _ (h c (by simp)), ih (by simp) fun c hc => h c (List.mem_cons_of_mem _ hc)]
      rfl

theorem parse_spell (cs : List String) (hne : cs ≠ []) (h : ∀ c ∈ cs, '/' ∉ c.toList) :
    parse (String.ofList (spell cs)) = ⟨(spell cs).head? = some '/', cs.filter fun c => c ≠ "" ∧ c ≠ "."⟩ := by
  unfold parse pySplit
  rw [String.toList_ofList, splitAt1_spell cs hne h, List.map_map]
  congr 2
  refine (List.map_congr_left fun c _ => ?_).trans (List.map_id cs)
  simp

/-- C78: how the text of a path is read: the components between slashes, from the root if it starts with a slash; components that are empty or `.` do not count. -/
theorem C78_text (cs : List String) (h : ∀ c ∈ cs, '/' ∉ c.toList) :
    (cs ≠ [] → (∀ c ∈ cs, c ≠ "" ∧ c ≠ ".") → parse (String.ofList (spell cs)) = ⟨false, cs⟩ ∧ parse (String.ofList ('/' :: spell cs)) = ⟨true, cs⟩) ∧
    (∀ pre post x, cs = pre ++ x :: post → pre ≠ [] → post ≠ [] → x = "" ∨ x = "." →
      parse (String.ofList (spell cs)) = parse (String.ofList (spell (pre ++ post)))) := by
  constructor
  · intro hne hc
    have hf : cs.filter (fun c => c ≠ "" ∧ c ≠ ".") = cs := List.filter_eq_self.2 fun c hm => by simpa using hc c hm
    have hh : (spell cs).head? ≠ some '/' := by
      obtain ⟨c, t, rfl⟩ := List.exists_cons_of_ne_nil hne
      have h1 := h c (by simp)
      have h2 : c.toList ≠ [] := fun he => (hc c (by simp)).1 (by rw [← String.ofList_toList (s := c), he])
      obtain ⟨x, l, hx⟩ := List.exists_cons_of_ne_nil h2
      intro he
      apply h1
      cases t <;> simp [spell, hx] at he <;> simp [hx, he]
    refine ⟨by rw [parse_spell cs hne h, hf]; simp [hh], ?_⟩
    have e : '/' :: spell cs = spell ("" :: cs) := by
      obtain ⟨c, t, rfl⟩ := List.exists_cons_of_ne_nil hne
      rfl
    rw [e, parse_spell _ (by simp) (by simpa using h), ← e]
    simp only [List.head?_cons, decide_true, List.filter_cons]
    simpa using hf
  · rintro pre post x rfl hp hq hx
    rw [parse_spell _ (by simp) h, parse_spell _ (by simp [hp]) fun c hc => h c (by
      rcases List.mem_append.1 hc with hc | hc
      · exact List.mem_append_left _ hc
      · exact List.mem_append_right _ (List.mem_cons_of_mem _ hc))]
    have hh : (spell (pre ++ x :: post)).head? = (spell (pre ++ post)).head? := by
      obtain ⟨c, t, rfl⟩ := List.exists_cons_of_ne_nil hp
      obtain ⟨d, u, rfl⟩ := List.exists_cons_of_ne_nil hq
      cases t <;> simp only [List.cons_append, List.nil_append, spell] <;> cases c.toList <;> rfl
    have hf : (pre ++ x :: post).filter (fun c => c ≠ "" ∧ c ≠ ".") = (pre ++ post).filter fun c => c ≠ "" ∧ c ≠ "." := by
      rw [List.filter_append, List.filter_append, List.filter_cons_of_neg]
      rcases hx with rfl | rfl <;> simp
    rw [hh, hf]

example : parse "/data//par/./x.par" = parse "/data/par/x.par" := by decide +kernel

/-- C79: which strings count as par and tim files: those ending in `.par`, and those ending in `.tim`
or `.toa`; the order of the arguments is kept, other arguments are ignored. -/
theorem C79_names (args : List (Arg T P N)) :
    (∀ s, s ∈ parfiles args ↔ .str s ∈ args ∧ ext s = "par") ∧
    (∀ s, s ∈ timfiles args ↔ .str s ∈ args ∧ (ext s = "tim" ∨ ext s = "toa")) ∧
    (∀ s, s ∈ feathers args ↔ .str s ∈ args ∧ ∃ a, s.toList = a ++ ".feather".toList) ∧
    (∀ a : List Char, ext (String.ofList (a ++ ".par".toList)) = "par" ∧
      ext (String.ofList (a ++ ".tim".toList)) = "tim" ∧ ext (String.ofList (a ++ ".toa".toList)) = "toa") := by
  refine ⟨?_, ?_, ?_, ?_⟩
  · intro s
    unfold parfiles
    rw [List.mem_filterMap]
    constructor
    · rintro ⟨a, ha, h⟩
      cases a <;> simp at h
      obtain ⟨h1, rfl⟩ := h
      exact ⟨ha, h1⟩
    · rintro ⟨h1, h2⟩
      exact ⟨_, h1, by simp [h2]⟩
  · intro s
    unfold timfiles
    rw [List.mem_filterMap]
    constructor
    · rintro ⟨a, ha, h⟩
      cases a <;> simp at h
      obtain ⟨h1, rfl⟩ := h
      exact ⟨ha, h1⟩
    · rintro ⟨h1, h2⟩
      exact ⟨_, h1, by simp [h2]⟩
  · intro s
    unfold feathers
    rw [List.mem_filterMap]
    constructor
    · rintro ⟨a, ha, h⟩
      cases a with
      | str x =>
        dsimp only at h
        split at h
        · rename_i hs
          cases h
          obtain ⟨y, hy⟩ := hs
          exact ⟨ha, y, hy.symm⟩
        · cases h
      | toas _ => cases h
      | model _ => cases h
      | t2psr _ => cases h
      | other => cases h
    · rintro ⟨h1, a, h2⟩
      refine ⟨_, h1, ?_⟩
      dsimp only
      rw [if_pos ⟨a, h2.symm⟩]
  · intro a
    exact ⟨ext_spec a "par".toList (by decide +kernel), ext_spec a "tim".toList (by decide +kernel),
      ext_spec a "toa".toList (by decide +kernel)⟩

theorem objects_of (env : Env R T P N Q) (args : List (Arg T P N)) (kw : Kw)
    (h : feathers args = []) (hk : kw.filepath = none) :
    (∀ t ts m ms, env.pint = true → toasArgs args = t :: ts → modelArgs args = m :: ms →
      pulsar env args kw = env.mkPint t m) ∧
    (∀ p ps, (env.pint = false ∨ toasArgs args = [] ∨ modelArgs args = []) → env.t2 = true →
      t2Args args = p :: ps → pulsar env args kw = env.mkTempo2 p) ∧
    (∀ par pars tim tims, (env.pint = false ∨ toasArgs args = [] ∨ modelArgs args = []) →
      (env.t2 = false ∨ t2Args args = []) → parfiles args = par :: pars → timfiles args = tim :: tims →
      pulsar env args kw = loadFiles env kw par tim) ∧
    ((env.pint = false ∨ toasArgs args = [] ∨ modelArgs args = []) →
      (env.t2 = false ∨ t2Args args = []) → (parfiles args = [] ∨ timfiles args = []) →
      pulsar env args kw = raise .valueError) := by
  have hstart : pulsar env args kw = (match env.pint, toasArgs args, modelArgs args with
      | true, t :: _, m :: _ => env.mkPint t m
      | _, _, _ =>
        match env.t2, t2Args args with
        | true, p :: _ => env.mkTempo2 p
        | _, _ =>
          match parfiles args, timfiles args with
          | par :: _, tim :: _ => loadFiles env kw par tim
          | _, _ => raise .valueError) := by
    unfold pulsar
    rw [h, hk]
    rfl
  have hno : (env.pint = false ∨ toasArgs args = [] ∨ modelArgs args = []) →
      pulsar env args kw = (match env.t2, t2Args args with
        | true, p :: _ => env.mkTempo2 p
        | _, _ =>
          match parfiles args, timfiles args with
          | par :: _, tim :: _ => loadFiles env kw par tim
          | _, _ => raise .valueError) := by
    intro hc
    rw [hstart]
    rcases hc with hc | hc | hc
    · rw [hc]
    · rw [hc]; cases env.pint <;> rfl
    · rw [hc]; cases env.pint <;> cases toasArgs args <;> rfl
  have hno2 : (env.pint = false ∨ toasArgs args = [] ∨ modelArgs args = []) →
      (env.t2 = false ∨ t2Args args = []) →
      pulsar env args kw = (match parfiles args, timfiles args with
          | par :: _, tim :: _ => loadFiles env kw par tim
          | _, _ => raise .valueError) := by
    intro hc hd
    rw [hno hc]
    rcases hd with hd | hd
    · rw [hd]
    · rw [hd]; cases env.t2 <;> rfl
  refine ⟨?_, ?_, ?_, ?_⟩
  · intro t ts m ms h1 h2 h3
    rw [hstart, h1, h2, h3]
  · intro p ps hc h1 h2
    rw [hno hc, h1, h2]
  · intro par pars tim tims hc hd h1 h2
    rw [hno2 hc hd, h1, h2]
  · intro hc hd he
    rw [hno2 hc hd]
    rcases he with he | he
    · rw [he]
    · rw [he]; cases parfiles args <;> rfl

/-- `a` is the first of the arguments with the property. -/
def First {α : Type} (args : List α) (q : α → Prop) (a : α) : Prop := ∃ before after, args = before ++ a :: after ∧ q a ∧ ∀ b ∈ before, ¬ q b

theorem filterMap_none {α β : Type} {f : α → Option β} {q : α → Prop} (hf : ∀ a, (f a).isSome ↔ q a) {args : List α} (h : ∀ a ∈ args, ¬ q a) :
    args.filterMap f = [] := by
  rw [List.filterMap_eq_nil_iff]
  intro a ha
  have := mt (hf a).1 (h a ha)
  simpa using this

theorem filterMap_first {α β : Type} {f : α → Option β} {q : α → Prop} (hf : ∀ a, (f a).isSome ↔ q a) {args : List α} {a : α} (h : First args q a)
    {b : β} (hb : f a = some b) : ∃ t, args.filterMap f = b :: t := by
  obtain ⟨before, after, rfl, -, h2⟩ := h
  exact ⟨after.filterMap f, by rw [List.filterMap_append, filterMap_none hf h2, List.filterMap_cons_some hb]; rfl⟩

/-- The kinds of arguments: a PINT TOAs object, a PINT timing model, a tempopulsar. -/
def IsToas (a : Arg T P N) : Prop := ∃ t, a = .toas t

@[inherit_doc IsToas]
def IsModel (a : Arg T P N) : Prop := ∃ t, a = .model t

@[inherit_doc IsToas]
def IsT2 (a : Arg T P N) : Prop := ∃ t, a = .t2psr t

/-- The names of par files, tim files and feather files. -/
def IsPar (a : Arg T P N) : Prop := ∃ s, a = .str s ∧ ext s = "par"

@[inherit_doc IsPar]
def IsTim (a : Arg T P N) : Prop := ∃ s, a = .str s ∧ (ext s = "tim" ∨ ext s = "toa")

@[inherit_doc IsPar]
def IsFeather (a : Arg T P N) : Prop := ∃ s, a = .str s ∧ ∃ x, s.toList = x ++ ".feather".toList

/-- C79: then PINT objects (both must be given), then a tempo2 object, then files; the first of each kind is taken, in whatever order they are
given, and a package that is not installed is not used. -/
theorem C79_objects (env : Env R T P N Q) (args : List (Arg T P N)) (kw : Kw)
    (h : ∀ a ∈ args, ¬ IsFeather a) (hk : kw.filepath = none) :
    (∀ t m, env.pint = true → First args IsToas (.toas t) → First args IsModel (.model m) → pulsar env args kw = env.mkPint t m) ∧
    (∀ p, (env.pint = false ∨ (∀ a ∈ args, ¬ IsToas a) ∨ ∀ a ∈ args, ¬ IsModel a) → env.t2 = true → First args IsT2 (.t2psr p) →
      pulsar env args kw = env.mkTempo2 p) ∧
    (∀ par tim, (env.pint = false ∨ (∀ a ∈ args, ¬ IsToas a) ∨ ∀ a ∈ args, ¬ IsModel a) → (env.t2 = false ∨ ∀ a ∈ args, ¬ IsT2 a) →
      First args IsPar (.str par) → First args IsTim (.str tim) → pulsar env args kw = loadFiles env kw par tim) ∧
    ((env.pint = false ∨ (∀ a ∈ args, ¬ IsToas a) ∨ ∀ a ∈ args, ¬ IsModel a) → (env.t2 = false ∨ ∀ a ∈ args, ¬ IsT2 a) →
      ((∀ a ∈ args, ¬ IsPar a) ∨ ∀ a ∈ args, ¬ IsTim a) → pulsar env args kw = raise .valueError) := by
  have hfe : feathers args = [] := by
    rw [List.eq_nil_iff_forall_not_mem]
    intro s hs
    obtain ⟨h1, h2⟩ := ((C79_names args).2.2.1 s).1 hs
    exact h _ h1 ⟨s, rfl, h2⟩
  obtain ⟨o1, o2, o3, o4⟩ := objects_of env args kw hfe hk
  have f1 : ∀ a : Arg T P N, (match a with | .toas t => some t | _ => none : Option T).isSome ↔ IsToas a := by
    intro a; cases a <;> simp [IsToas]
  have f2 : ∀ a : Arg T P N, (match a with | .model t => some t | _ => none : Option P).isSome ↔ IsModel a := by
    intro a; cases a <;> simp [IsModel]
  have f3 : ∀ a : Arg T P N, (match a with | .t2psr t => some t | _ => none : Option N).isSome ↔ IsT2 a := by
    intro a; cases a <;> simp [IsT2]
  have f4 : ∀ a : Arg T P N, (match a with | .str s => if ext s = "par" then some s else none | _ => none : Option String).isSome ↔ IsPar a := by
    intro a; cases a <;> simp [IsPar]
  have f5 : ∀ a : Arg T P N, (match a with | .str s => if ext s = "tim" ∨ ext s = "toa" then some s else none | _ => none : Option String).isSome ↔
      IsTim a := by
    intro a; cases a <;> simp [IsTim]
  have n1 : (env.pint = false ∨ (∀ a ∈ args, ¬ IsToas a) ∨ ∀ a ∈ args, ¬ IsModel a) → (env.pint = false ∨ toasArgs args = [] ∨ modelArgs args = []) :=
    Or.imp_right (Or.imp (filterMap_none f1) (filterMap_none f2))
  have n2 : (env.t2 = false ∨ ∀ a ∈ args, ¬ IsT2 a) → (env.t2 = false ∨ t2Args args = []) := Or.imp_right (filterMap_none f3)
  refine ⟨fun t m hp ht hm => ?_, fun p hn h2 hp => ?_, fun par tim hn h2 hp ht => ?_, fun hn h2 hf => ?_⟩
  · obtain ⟨x, hx⟩ := filterMap_first f1 ht rfl
    obtain ⟨y, hy⟩ := filterMap_first f2 hm rfl
    exact o1 t x m y hp hx hy
  · obtain ⟨x, hx⟩ := filterMap_first f3 hp rfl
    exact o2 p x (n1 hn) h2 hx
  · have e1 : ext par = "par" := by
      obtain ⟨-, -, -, ⟨s, hs, he⟩, -⟩ := hp
      cases hs
      exact he
    have e2 : ext tim = "tim" ∨ ext tim = "toa" := by
      obtain ⟨-, -, -, ⟨s, hs, he⟩, -⟩ := ht
      cases hs
      exact he
    obtain ⟨x, hx⟩ := filterMap_first f4 hp (if_pos e1)
    obtain ⟨y, hy⟩ := filterMap_first f5 ht (if_pos e2)
    exact o3 par x tim y (n1 hn) (n2 h2) hx hy
  · exact o4 (n1 hn) (n2 h2) (hf.imp (filterMap_none f4) (filterMap_none f5))

/-- PINT objects are given after a tempopulsar and other arguments. -/
example (env : Env R T P N Q) (hp : env.pint = true) (kw : Kw) (hk : kw.filepath = none) (t t' : T) (m : P) (p : N) :
    pulsar env [.t2psr p, .toas t, .other, .model m, .toas t'] kw = env.mkPint t m :=
  (C79_objects env _ kw (by simp [IsFeather]) hk).1 t m hp
    ⟨[.t2psr p], [.other, .model m, .toas t'], rfl, ⟨t, rfl⟩, by simp [IsToas]⟩
    ⟨[.t2psr p, .toas t, .other], [.toas t'], rfl, ⟨m, rfl⟩, by simp [IsModel]⟩

/-- C79: loading from files with the package chosen.  A missing file raises `IOError` before
anything else; an explicit `timing_package` is used whatever its case; without one tempo2 is
preferred to PINT; a package that is not installed, or an unknown name, raises `ValueError`.  None
of these failures needs the timing package. -/
theorem C79_package (env : Env R T P N Q) (kw : Kw) (par tim : String) (w : W R)
    (hback : ∀ w' : W R, w'.isDir w.cwd) :
    ((w.isFile (resolve w (parse par)) = false ∨ w.isFile (resolve w (parse tim)) = false) →
      loadFiles env kw par tim w = (.error .ioError, w)) ∧
    (w.isFile (resolve w (parse par)) = true → w.isFile (resolve w (parse tim)) = true →
      (kw.timingPackage = none → env.t2 = false → env.pint = false →
        (loadFiles env kw par tim w).1 = .error .valueError) ∧
      (w.isDir (resolve w (dirOf (parse tim))) = true →
        (∀ s, kw.timingPackage = some s → s.toLower ≠ "tempo2" → s.toLower ≠ "pint" →
          (loadFiles env kw par tim w).1 = .error .valueError) ∧
        (∀ s, kw.timingPackage = some s → s.toLower = "tempo2" → env.t2 = false →
          (loadFiles env kw par tim w).1 = .error .valueError) ∧
        (∀ s, kw.timingPackage = some s → s.toLower = "pint" → env.pint = false →
          (loadFiles env kw par tim w).1 = .error .valueError) ∧
        (env.t2 = true → (kw.timingPackage = none ∨ ∃ s, kw.timingPackage = some s ∧ s.toLower = "tempo2") →
          (loadFiles env kw par tim w).1 =
            (M.bind (env.maxobs (baseOf (parse tim))) (fun n =>
              M.bind (env.tempopulsar (relpath w.cwd (parse par) (dirOf (parse tim))) (baseOf (parse tim)) (n + 100))
                env.mkTempo2) { w with cwd := resolve w (dirOf (parse tim)) }).1) ∧
        (env.pint = true → kw.clk = none →
          ((kw.timingPackage = none ∧ env.t2 = false) ∨ ∃ s, kw.timingPackage = some s ∧ s.toLower = "pint") →
          (loadFiles env kw par tim w).1 =
            (M.bind (env.modelAndToas (relpath w.cwd (parse par) (dirOf (parse tim))) (baseOf (parse tim)) kw.bipm)
              (fun mt => M.bind (chdirBack w.cwd) fun _ => env.mkPint mt.2 mt.1)
              { w with cwd := resolve w (dirOf (parse tim)) }).1))) := by
  refine ⟨?_, fun hp ht => ⟨?_, fun hd => ?_⟩⟩
  · intro h
    unfold loadFiles
    rw [if_pos]
    rcases h with h | h <;> simp [h]
  · intro h1 h2 h3
    unfold loadFiles package
    simp [hp, ht, h1, h2, h3]
  · have hch : (chdir (dirOf (parse tim)) : M R Unit) w =
        (.ok (), { w with cwd := resolve w (dirOf (parse tim)) }) := by
      unfold chdir; rw [if_pos hd]
    refine ⟨?_, ?_, ?_, ?_, ?_⟩
    · intro s hs h1 h2
      rw [C24_outcome env kw par tim w hback hp ht s.toLower (by simp [package, hs])]
      simp only [loadBody, M.bind, hch, h1, h2, if_false, raise]
    · intro s hs h1 h2
      rw [C24_outcome env kw par tim w hback hp ht s.toLower (by simp [package, hs])]
      simp [loadBody, M.bind, hch, h1, loadTempo2, h2, raise]
    · intro s hs h1 h2
      rw [C24_outcome env kw par tim w hback hp ht s.toLower (by simp [package, hs])]
      have : ("pint" : String) ≠ "tempo2" := by decide
      simp [loadBody, M.bind, hch, h1, loadPint, h2, raise]
    · intro ht2 hk
      have hpk : package env kw = .ok "tempo2" := by
        unfold package
        rcases hk with hk | ⟨s, hk, hs⟩
        · simp [hk, ht2]
        · simp [hk, hs]
      rw [C24_outcome env kw par tim w hback hp ht _ hpk]
      have : loadBody env kw w.cwd "tempo2" (dirOf (parse tim)) (relpath w.cwd (parse par) (dirOf (parse tim)))
          (baseOf (parse tim)) w = loadTempo2 env (relpath w.cwd (parse par) (dirOf (parse tim))) (baseOf (parse tim))
            { w with cwd := resolve w (dirOf (parse tim)) } := by
        unfold loadBody
        rw [M.bind, hch]
        simp
      rw [this, loadTempo2, if_pos ht2]
    · intro hpi hclk hk
      have hpk : package env kw = .ok "pint" := by
        unfold package
        rcases hk with ⟨hk, h2⟩ | ⟨s, hk, hs⟩
        · simp [hk, h2, hpi]
        · simp [hk, hs]
      rw [C24_outcome env kw par tim w hback hp ht _ hpk]
      have : loadBody env kw w.cwd "pint" (dirOf (parse tim)) (relpath w.cwd (parse par) (dirOf (parse tim)))
          (baseOf (parse tim)) w = loadPint env kw w.cwd (relpath w.cwd (parse par) (dirOf (parse tim)))
            (baseOf (parse tim)) { w with cwd := resolve w (dirOf (parse tim)) } := by
        unfold loadBody
        rw [M.bind, hch]
        simp
      have hb : bipmOf kw = .ok kw.bipm := by simp [bipmOf, hclk]
      rw [this, loadPint, if_pos hpi, hb]

/-- The clock keyword is turned into a BIPM version; a clock without brackets is an error. -/
theorem C79_clock : bipmOf { clk := some "TT(BIPM2020)" } = .ok (some "BIPM2020") ∧
    bipmOf { clk := some "TT" } = .error .indexError ∧
    ∀ c b, bipmOf { clk := c, bipm := some b } = .ok (some b) := by
  refine ⟨by decide +kernel, by decide +kernel, fun c b => ?_⟩
  cases c <;> rfl

/-- The classification of names on examples, with the odd case of a bare "par". -/
example : parfiles [(.str "a/b.par" : Arg Unit Unit Unit), .str "x.tim", .other, .str "par", .str "z.feather"] =
      ["a/b.par", "par"] ∧
    timfiles [(.str "a/b.par" : Arg Unit Unit Unit), .str "x.tim", .str "y.toa"] = ["x.tim", "y.toa"] ∧
    feathers [(.str "a/b.par" : Arg Unit Unit Unit), .str "z.feather"] = ["z.feather"] := by
  decide +kernel

/-! ## C25: `get_maxobs` -/

/-- What a tim-file reader does (independent of `get_maxobs`): lines in order; comment lines
skipped, an INCLUDE line replaced by the lines of the file it names, other lines that `isToa`
recognises are TOAs. -/
inductive Reads (fs : Files) (isToa : Line → Bool) : Line → List Line → Prop
  | file (name : Line) (lines : List Line) (out : List (List Line)) (h : fs name = some lines)
      (hl : lines.length = out.length)
      (hc : ∀ (i : Nat) (l : Line) (o : List Line), lines[i]? = some l → out[i]? = some o →
        isComment l = true → o = [])
      (hi : ∀ (i : Nat) (l : Line) (o : List Line), lines[i]? = some l → out[i]? = some o →
        isComment l = false → isInclude l = true → Reads fs isToa (includeName l) o)
      (ht : ∀ (i : Nat) (l : Line) (o : List Line), lines[i]? = some l → out[i]? = some o →
        isComment l = false → isInclude l = false → o = if isToa l then [l] else []) :
      Reads fs isToa name out.flatten

theorem sumE_ok {l : List (Except PyErr Nat)} {n : Nat} (h : sumE l = .ok n) :
    ∃ ns : List Nat, l = ns.map .ok ∧ n = ns.sum := by
  induction l generalizing n with
  | nil => cases h; exact ⟨[], rfl, rfl⟩
  | cons a t ih =>
    cases a with
    | error e => cases h
    | ok k =>
      unfold sumE at h
      cases ht : sumE t with
      | error e => rw [ht] at h; cases h
      | ok m =>
        rw [ht] at h
        cases h
        obtain ⟨ns, h1, h2⟩ := ih ht
        exact ⟨k :: ns, by simp [h1], by simp [h2]⟩

theorem flatten_le_include {lines : List Line} {out : List (List Line)} (hl : lines.length = out.length)
    (bound : Line → Nat)
    (h : ∀ (i : Nat) (l : Line) (o : List Line), lines[i]? = some l → out[i]? = some o →
      o.length ≤ if isComment l then 0 else if isInclude l then bound l else 0) :
    out.flatten.length ≤ (((lines.filter fun l => !isComment l).filter isInclude).map bound).sum := by
  induction lines generalizing out with
  | nil =>
    have : out = [] := List.length_eq_zero_iff.1 (by simpa using hl.symm)
    subst this; simp
  | cons l t ih =>
    cases out with
    | nil => simp at hl
    | cons o os =>
      have ht := ih (out := os) (by simpa using hl) fun i l' o' h1 h2 => h (i + 1) l' o' (by simpa using h1) (by simpa using h2)
      have h0 := h 0 l o rfl rfl
      simp only [List.flatten_cons, List.length_append]
      by_cases hc : isComment l = true
      · simp only [hc, if_true] at h0
        simp only [List.filter_cons, hc, Bool.not_true, Bool.false_eq_true, if_false]
        omega
      · by_cases hi : isInclude l = true
        · simp only [hc, hi, if_true, Bool.false_eq_true, if_false] at h0
          simp only [List.filter_cons, hc, hi, Bool.not_false, if_true, List.map_cons, List.sum_cons]
          omega
        · simp only [hc, hi, Bool.false_eq_true, if_false] at h0
          simp only [List.filter_cons, hc, hi, Bool.not_false, if_true, Bool.false_eq_true, if_false]
          omega

theorem flatten_le_own {lines : List Line} {out : List (List Line)} (hl : lines.length = out.length)
    (h : ∀ (i : Nat) (l : Line) (o : List Line), lines[i]? = some l → out[i]? = some o →
      o.length ≤ if isComment l then 0 else if nonblank l then 1 else 0) :
    out.flatten.length ≤ (lines.filter fun l => !isComment l).countP nonblank := by
  induction lines generalizing out with
  | nil =>
    have : out = [] := List.length_eq_zero_iff.1 (by simpa using hl.symm)
    subst this; simp
  | cons l t ih =>
    cases out with
    | nil => simp at hl
    | cons o os =>
      have ht := ih (out := os) (by simpa using hl) fun i l' o' h1 h2 => h (i + 1) l' o' (by simpa using h1) (by simpa using h2)
      have h0 := h 0 l o rfl rfl
      simp only [List.flatten_cons, List.length_append]
      by_cases hc : isComment l = true
      · simp only [hc, if_true] at h0
        simp only [List.filter_cons, hc, Bool.not_true, Bool.false_eq_true, if_false]
        omega
      · simp only [hc, Bool.false_eq_true, if_false] at h0
        simp only [List.filter_cons, hc, Bool.not_false, if_true, List.countP_cons]
        omega

/-- C25 (partial): if no file with an INCLUDE line also has TOA lines of its own, then whenever
`get_maxobs` returns, it returns at least the number of TOAs a reader finds.  TOA lines are
whatever the reader recognises, provided they are not blank.  Missing: files with both
(`C25_mixed_false`) and files that include themselves (`C25_cycle`). -/
theorem C25_enough_partial (fs : Files) (isToa : Line → Bool) (htoa : ∀ l, isToa l = true → nonblank l = true)
    (hmix : ∀ name lines, fs name = some lines → (∃ l ∈ lines, isComment l = false ∧ isInclude l = true) →
      ∀ l ∈ lines, isComment l = false → isInclude l = false → isToa l = false)
    (name : Line) (toas : List Line) (hr : Reads fs isToa name toas) (depth n : Nat)
    (h : getMaxobs fs depth name = .ok n) : toas.length ≤ n := by
  induction depth generalizing name toas n with
  | zero => cases h
  | succ depth ih =>
    obtain ⟨_, lines, out, hf, hl, ho1, ho2, ho3⟩ := hr
    unfold getMaxobs at h
    rw [hf] at h
    dsimp only at h
    by_cases hinc : (lines.filter fun l => !isComment l).any isInclude = true
    · rw [if_pos hinc] at h
      obtain ⟨ns, h1, h2⟩ := sumE_ok h
      have hex : ∃ l ∈ lines, isComment l = false ∧ isInclude l = true := by
        obtain ⟨l, hlm, hli⟩ := List.any_eq_true.1 hinc
        have := List.mem_filter.1 hlm
        exact ⟨l, this.1, by simpa using this.2, hli⟩
      have hmixn := hmix name lines hf hex
      -- value of the recursive call
      let bound : Line → Nat := fun l => match getMaxobs fs depth (includeName l) with
        | .ok k => k
        | .error _ => 0
      have hns : ns = ((lines.filter fun l => !isComment l).filter isInclude).map bound := by
        have : ∀ (ls : List Line) (ns : List Nat),
            ls.map (fun l => getMaxobs fs depth (includeName l)) = ns.map .ok → ns = ls.map bound := by
          intro ls
          induction ls with
          | nil => intro ns hh; cases ns with
            | nil => rfl
            | cons a t => simp at hh
          | cons l t iht => intro ns hh; cases ns with
            | nil => simp at hh
            | cons a t' =>
              simp only [List.map_cons, List.cons.injEq] at hh
              rw [List.map_cons, ← iht t' hh.2]
              congr 1
              simp only [bound, hh.1]
        exact this _ _ h1
      rw [h2, hns]
      apply flatten_le_include hl
      intro i l o hil hio
      by_cases hc : isComment l = true
      · have hspec := ho1 i l o hil hio hc
        subst hspec; simp
      · have hc : isComment l = false := by simpa using hc
        by_cases hi : isInclude l = true
        · have hspec := ho2 i l o hil hio hc hi
          simp only [hc, hi, if_true, Bool.false_eq_true, if_false]
          have hmem : l ∈ (lines.filter fun l => !isComment l).filter isInclude :=
            List.mem_filter.2 ⟨List.mem_filter.2 ⟨List.mem_of_getElem? hil, by simpa using hc⟩, hi⟩
          have : ∃ k, getMaxobs fs depth (includeName l) = .ok k := by
            have hm : getMaxobs fs depth (includeName l) ∈ ns.map Except.ok := by
              rw [← h1]; exact List.mem_map.2 ⟨l, hmem, rfl⟩
            obtain ⟨k, -, hk⟩ := List.mem_map.1 hm
            exact ⟨k, hk.symm⟩
          obtain ⟨k, hk⟩ := this
          have hb : bound l = k := by simp only [bound, hk]
          rw [hb]
          exact ih _ _ hspec _ hk
        · have hi : isInclude l = false := by simpa using hi
          have hspec := ho3 i l o hil hio hc hi
          have := hmixn l (List.mem_of_getElem? hil) (by simpa using hc) (by simpa using hi)
          rw [this] at hspec
          simp only [Bool.false_eq_true, if_false] at hspec
          subst hspec; simp
    · rw [if_neg hinc] at h
      cases h
      apply flatten_le_own hl
      intro i l o hil hio
      by_cases hc : isComment l = true
      · have hspec := ho1 i l o hil hio hc
        subst hspec; simp
      · have hc : isComment l = false := by simpa using hc
        have hni : isInclude l = false := by
          by_contra hcon
          apply hinc
          refine List.any_eq_true.2 ⟨l, List.mem_filter.2 ⟨List.mem_of_getElem? hil, by simpa using hc⟩, by simpa using hcon⟩
        have hspec := ho3 i l o hil hio hc hni
        simp only [hc, Bool.false_eq_true, if_false]
        by_cases ht : isToa l = true
        · rw [if_pos ht] at hspec
          subst hspec
          simp [htoa l ht]
        · rw [if_neg ht] at hspec
          subst hspec; simp

/-- C25 is false: a file with `n` TOA lines and one INCLUDE of a file with `k` lines gives `k`,
however large `n` is — so the 100 spare places do not help. -/
theorem C25_mixed_false (n k depth : Nat) :
    let toa : Line := "x 1400 5e4 1 gbt\n".toList
    let fs : Files := fun f => if f = "main.tim".toList then
        some (List.replicate n toa ++ ["INCLUDE sub.tim\n".toList])
      else if f = "sub.tim".toList then some (List.replicate k toa) else none
    getMaxobs fs (depth + 2) "main.tim".toList = .ok k ∧
    Reads fs (· = toa) "main.tim".toList (List.replicate (n + k) toa) := by
  intro toa fs
  have htc : isComment toa = false := by decide +kernel
  have hti : isInclude toa = false := by decide +kernel
  have htn : nonblank toa = true := by decide +kernel
  have hic : isComment "INCLUDE sub.tim\n".toList = false := by decide +kernel
  have hii : isInclude "INCLUDE sub.tim\n".toList = true := by decide +kernel
  have hname : includeName "INCLUDE sub.tim\n".toList = "sub.tim".toList := by decide +kernel
  have hne : ("sub.tim".toList = "main.tim".toList) = False := by decide +kernel
  have hrep : ∀ m, (List.replicate m toa).filter (fun l => !isComment l) = List.replicate m toa := by
    intro m; rw [List.filter_eq_self]; intro a ha; rw [List.eq_of_mem_replicate ha, htc]; rfl
  have hrepi : ∀ m, (List.replicate m toa).filter isInclude = [] := by
    intro m; rw [List.filter_eq_nil_iff]; intro a ha; rw [List.eq_of_mem_replicate ha, hti]; simp
  have hrepa : ∀ m, (List.replicate m toa).any isInclude = false := by
    intro m; rw [List.any_eq_false]; intro a ha; rw [List.eq_of_mem_replicate ha, hti]; simp
  have hmain : fs "main.tim".toList = some (List.replicate n toa ++ ["INCLUDE sub.tim\n".toList]) := by
    simp only [fs, if_true]
  have hsubf : fs "sub.tim".toList = some (List.replicate k toa) := by
    simp only [fs, hne, if_false, if_true]
  have hsub : getMaxobs fs (depth + 1) "sub.tim".toList = .ok k := by
    unfold getMaxobs
    rw [hsubf]
    simp only [hrep, hrepa, Bool.false_eq_true, if_false]
    rw [List.countP_replicate, if_pos htn]
  constructor
  · unfold getMaxobs
    rw [hmain]
    simp only [List.filter_append, hrep, hrepi, List.any_append, hrepa, Bool.false_or, List.nil_append]
    simp only [List.filter_cons, hic, hii, Bool.not_false, if_true, List.filter_nil, List.any_cons,
      List.any_nil, Bool.or_false, List.map_cons, List.map_nil, hname, hsub, sumE, Nat.add_zero]
  · have hleaf : Reads fs (· = toa) "sub.tim".toList (List.replicate k toa) := by
      have hmem : ∀ (i : Nat) (l : Line) (o : List Line), (List.replicate k toa)[i]? = some l →
          (List.replicate k [toa])[i]? = some o → l = toa ∧ o = [toa] := fun i l o h1 h2 =>
        ⟨List.eq_of_mem_replicate (List.mem_of_getElem? h1), List.eq_of_mem_replicate (List.mem_of_getElem? h2)⟩
      have := Reads.file (fs := fs) (isToa := fun l => decide (l = toa)) "sub.tim".toList (List.replicate k toa)
        (List.replicate k [toa]) hsubf (by simp)
        (fun i l o h1 h2 h3 => by rw [(hmem i l o h1 h2).1, htc] at h3; cases h3)
        (fun i l o h1 h2 _ h3 => by rw [(hmem i l o h1 h2).1, hti] at h3; cases h3)
        (fun i l o h1 h2 _ _ => by rw [(hmem i l o h1 h2).1, (hmem i l o h1 h2).2]; simp)
      simpa using this
    have hmem : ∀ (i : Nat) (l : Line) (o : List Line),
        (List.replicate n toa ++ ["INCLUDE sub.tim\n".toList])[i]? = some l →
        (List.replicate n [toa] ++ [List.replicate k toa])[i]? = some o →
        (l = toa ∧ o = [toa]) ∨ (l = "INCLUDE sub.tim\n".toList ∧ o = List.replicate k toa) := by
      intro i l o h1 h2
      by_cases hi : i < n
      · rw [List.getElem?_append_left (by simpa using hi)] at h1 h2
        exact Or.inl ⟨List.eq_of_mem_replicate (List.mem_of_getElem? h1),
          List.eq_of_mem_replicate (List.mem_of_getElem? h2)⟩
      · rw [List.getElem?_append_right (by simpa using hi)] at h1 h2
        have e1 := List.mem_of_getElem? h1
        have e2 := List.mem_of_getElem? h2
        exact Or.inr ⟨List.mem_singleton.1 e1, List.mem_singleton.1 e2⟩
    have := Reads.file (fs := fs) (isToa := fun l => decide (l = toa)) "main.tim".toList _
      (List.replicate n [toa] ++ [List.replicate k toa]) hmain (by simp)
      (fun i l o h1 h2 h3 => by
        rcases hmem i l o h1 h2 with ⟨e, -⟩ | ⟨e, -⟩
        · rw [e, htc] at h3; cases h3
        · rw [e, hic] at h3; cases h3)
      (fun i l o h1 h2 _ h3 => by
        rcases hmem i l o h1 h2 with ⟨e, -⟩ | ⟨e, e'⟩
        · rw [e, hti] at h3; cases h3
        · rw [e, e', hname]; exact hleaf)
      (fun i l o h1 h2 _ h3 => by
        rcases hmem i l o h1 h2 with ⟨e, e'⟩ | ⟨e, -⟩
        · rw [e, e']; simp
        · rw [e, hii] at h3; cases h3)
    have e : ∀ t : Line, (List.replicate n [t] ++ [List.replicate k t]).flatten = List.replicate (n + k) t := by
      intro t; simp
    rw [← e toa]
    exact this

/-- A file that includes itself exhausts the recursion limit, whatever it is. -/
theorem C25_cycle (fs : Files) (name l : Line) (rest : List Line) (hf : fs name = some (l :: rest))
    (hc : isComment l = false) (hi : isInclude l = true) (hn : includeName l = name) (depth : Nat) :
    getMaxobs fs depth name = .error .runtimeError := by
  induction depth with
  | zero => rfl
  | succ d ih =>
    unfold getMaxobs
    rw [hf]
    simp [hc, hi, hn, ih, sumE]

theorem wordsAux_run (name rest acc : Line) (h : ∀ c ∈ name, isSpace c = false) :
    wordsAux (name ++ rest) acc = wordsAux rest (acc ++ name) := by
  induction name generalizing acc with
  | nil => simp
  | cons c t ih =>
    simp only [List.cons_append, wordsAux, h c (by simp), Bool.false_eq_true, if_false]
    rw [ih _ fun x hx => h x (by simp [hx])]
    simp

theorem wordsAux_gap (gap rest : Line) (h : ∀ c ∈ gap, isSpace c = true) :
    wordsAux (gap ++ rest) [] = wordsAux rest [] := by
  induction gap with
  | nil => rfl
  | cons c t ih =>
    simp only [List.cons_append, wordsAux, h c (by simp), if_true]
    exact ih fun x hx => h x (by simp [hx])

/-- C25: the file an INCLUDE line names is its last word, however many spaces stand before it or
after it. -/
theorem C25_include_name (gap name tail : Line) (hn : name ≠ []) (h : ∀ c ∈ name, isSpace c = false)
    (hg : ∀ c ∈ gap, isSpace c = true) (ht : ∀ c ∈ tail, isSpace c = true) :
    includeName ("INCLUDE ".toList ++ gap ++ name ++ tail) = name ∧
    isInclude ("INCLUDE ".toList ++ gap ++ name ++ tail) = true ∧
    isComment ("INCLUDE ".toList ++ gap ++ name ++ tail) = false := by
  have h0 : ∀ rest, words ("INCLUDE ".toList ++ rest) = "INCLUDE".toList :: wordsAux rest [] := by
    intro rest; rfl
  refine ⟨?_, ?_, ?_⟩
  · unfold includeName
    rw [List.append_assoc, List.append_assoc, h0, wordsAux_gap _ _ hg, wordsAux_run name _ _ h]
    cases tail with
    | nil => simp [wordsAux, hn]
    | cons c t =>
      have e := wordsAux_gap t [] fun x hx => ht x (by simp [hx])
      rw [List.append_nil] at e
      simp [wordsAux, ht c (by simp), hn, e]
  · unfold isInclude
    simp only [decide_eq_true_eq]
    exact ⟨[], " ".toList ++ gap ++ name ++ tail, by simp⟩
  · rfl

/-- Two spaces, a name and a line end. -/
example : includeName ("INCLUDE ".toList ++ " \t".toList ++ "a.tim".toList ++ " \n".toList) = "a.tim".toList :=
  (C25_include_name _ _ _ (by decide) (by decide) (by decide) (by decide)).1

/-- Included files that cannot be opened raise. -/
theorem C25_missing (fs : Files) (name : Line) (hf : fs name = none) (depth : Nat) :
    getMaxobs fs (depth + 1) name = .error .fileNotFoundError := by
  unfold getMaxobs; rw [hf]

/-- A plain file and a file of includes. -/
example :
    let fs : Files := fun f => if f = "a".toList then
        some ["FORMAT 1\n".toList, "C x\n".toList, "x 1 2 3 g\n".toList, "\n".toList, "y 1 2 3 g\n".toList]
      else if f = "m".toList then some ["INCLUDE a\n".toList, "C INCLUDE zz\n".toList, "INCLUDE a".toList] else none
    getMaxobs fs 10 "a".toList = .ok 3 ∧ getMaxobs fs 10 "m".toList = .ok 6 := by decide +kernel

end Verif.Loader
