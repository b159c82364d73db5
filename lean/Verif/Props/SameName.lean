import Verif.Props.Labels

/-!
Signals with the same name (C59, C60).
-/

namespace Verif.Coefficients

open Verif Verif.Noise Verif.Joint Verif.Likelihood Verif.Combine Matrix

variable {H : Type} [DecidableEq H]

theorem update_get {κ α : Type} [DecidableEq κ] (e : List (κ × α)) (k : κ) (v : α) (e' : List (κ × α)) (h : k ∉ e'.map Prod.fst) : ∀ d : Dict κ α,
    (d.update (e ++ (k, v) :: e')).get? k = some v := by
  have after : ∀ (e' : List (κ × α)) (d : Dict κ α), k ∉ e'.map Prod.fst → (d.update e').get? k = d.get? k := by
    intro e'
    induction e' with
    | nil => intro d _; rfl
    | cons x t ih =>
      intro d h
      rw [List.map_cons, List.mem_cons, not_or] at h
      exact (ih _ h.2).trans (Dict.get?_set_ne d _ (Ne.symm h.1))
  intro d
  rw [Dict.update, List.foldl_append, List.foldl_cons]
  exact (after e' _ h).trans (Dict.get?_set_self _ _ _)

/-- The entry of a name is the slice of the last signal with that name. -/
theorem labelled_last (b : Nat → ℝ) (l l' : List (String × List Nat)) (x : String × List Nat) (hx : x.1 ∉ l'.map Prod.fst) :
    (labelled b (l ++ x :: l')).get? (x.1 ++ "_coefficients") = some (x.2.map b) := by
  rw [labelled, List.map_append, List.map_cons]
  refine update_get _ _ _ _ (fun h => hx ?_) []
  rw [List.map_map, List.mem_map] at h
  obtain ⟨y, hy, e⟩ := h
  exact List.mem_map.2 ⟨y, hy, coef_inj e⟩

/-- C60: with any names, also repeated ones, the labels give each name the columns of the last signal that has it. -/
theorem C60_last (hash : Col ℝ → H) (models : List (List LSig)) (hs : ∀ p ∈ models, ∀ s ∈ p, Plain s) (hd : ∀ p ∈ models, Distinct hash p) (b : Nat → ℝ) :
    ∃ l, labelAll wantBoth (vecLen hash models) models 0 = .ok l ∧ ∀ l₁ x l₂, place hash models 0 = l₁ ++ x :: l₂ → x.1 ∉ l₂.map Prod.fst →
      (labelled b l).get? (x.1 ++ "_coefficients") = some (x.2.map b) :=
  ⟨_, C60_labels hash models hs hd, fun l₁ x l₂ e hx => by
    rw [e]
    exact labelled_last b l₁ l₂ x hx⟩

/-- C60: so the coefficients of an earlier signal with that name are not returned, if any two coefficients differ. -/
theorem C60_lost (hash : Col ℝ → H) (models : List (List LSig)) (hs : ∀ p ∈ models, ∀ s ∈ p, Plain s) (hd : ∀ p ∈ models, Distinct hash p) (b : Nat → ℝ) (hb : Function.Injective b)
    {l₁ l₂ : List (String × List Nat)} {x y : String × List Nat} (e : place hash models 0 = l₁ ++ x :: l₂) (hy : y ∈ l₂) (hn : y.1 = x.1) (h0 : x.2 ≠ []) :
    ∃ l, labelAll wantBoth (vecLen hash models) models 0 = .ok l ∧ (labelled b l).get? (x.1 ++ "_coefficients") ≠ some (x.2.map b) := by
  refine ⟨_, C60_labels hash models hs hd, fun h => ?_⟩
  have hc := C60_cover hash models hd
  have hnd : ((place hash models 0).flatMap Prod.snd).Nodup := by
    rw [hc]
    exact List.nodup_range
  rw [e] at h hnd
  obtain ⟨l₃, z, l₄, rfl, hz, h4⟩ : ∃ l₃ z l₄, l₂ = l₃ ++ z :: l₄ ∧ z.1 = x.1 ∧ x.1 ∉ l₄.map Prod.fst := by
    clear e h hnd hc
    induction l₂ generalizing y with
    | nil => cases hy
    | cons w t ih =>
      by_cases ht : ∃ y ∈ t, y.1 = x.1
      · obtain ⟨y', h1, h2⟩ := ht
        obtain ⟨l₃, z, l₄, e, h⟩ := ih h1 h2
        exact ⟨w :: l₃, z, l₄, by rw [e, List.cons_append], h⟩
      · rcases List.mem_cons.1 hy with rfl | hy'
        · refine ⟨[], y, t, rfl, hn, fun hm => ht ?_⟩
          obtain ⟨y', h1, h2⟩ := List.mem_map.1 hm
          exact ⟨y', h1, h2⟩
        · exact absurd ⟨y, hy', hn⟩ ht
  have h5 := labelled_last b (l₁ ++ x :: l₃) l₄ z (hz ▸ h4)
  rw [List.append_assoc, List.cons_append, hz, h] at h5
  have h6 : x.2 = z.2 := hb.list_map (Option.some.inj h5)
  rw [List.flatMap_append, List.flatMap_cons, List.flatMap_append, List.flatMap_cons] at hnd
  obtain ⟨i, hi⟩ := List.exists_mem_of_ne_nil _ h0
  have h7 := (List.nodup_append.1 (List.nodup_append.1 hnd).2.1).2.2
  exact h7 i hi i (List.mem_append_right _ (List.mem_append_left _ (h6 ▸ hi))) rfl

/-- Two processes with different columns, both with the default name. -/
def sameSigs : List LSig :=
  [⟨"red_noise", .basis, ⟨false, false, some [fun i => if i = 0 then 1 else 0], [fun i => if i = 0 then 1 else 0], .one 1 fun _ => 1⟩⟩,
   ⟨"red_noise", .basis, ⟨false, false, some [fun i => if i = 0 then 0 else 1], [fun i => if i = 0 then 0 else 1], .one 1 fun _ => 1⟩⟩]

theorem sameSigs_positions : positions (fun _ => ()) sameSigs 0 = [("red_noise", [0]), ("red_noise", [1])] := by
  simp [positions, sameSigs, idxOf, combineIdx, columns]

theorem sameSigs_idx : idxOf (fun _ => ()) (sameSigs.map LSig.b) = [some [0], some [1]] := by
  simp [sameSigs, idxOf, combineIdx, columns]

theorem sameSigs_plain : ∀ s ∈ sameSigs, Plain s := by
  intro s hs
  simp only [sameSigs, List.mem_cons, List.not_mem_nil, or_false] at hs
  rcases hs with rfl | rfl <;> exact ⟨by simp, by intro F hF; simp only [Option.some.injEq] at hF; subst hF; rfl⟩

theorem sameSigs_distinct : Distinct (fun _ => ()) sameSigs := by
  rw [Distinct, sameSigs_idx]; simp

/-- C60 fails for signals with the same name: two processes with the default name have means 1/2 and 1, and only the second is returned. -/
theorem C60_names_false (lib : Lib) (method : Method) (hm : method ≠ .other) :
    positions (fun _ => ()) sameSigs 0 = [("red_noise", [0]), ("red_noise", [1])] ∧ meanOf two = (![1 / 2, 1] : Fin 2 → ℝ) ∧
      condCoefficients lib method [two.p] [] [sameSigs] none = .ok [("red_noise_coefficients", [1])] := by
  refine ⟨sameSigs_positions, two_mean, ?_⟩
  have hps := psrCoefs_ok lib none [two] (by
    intro q hq
    rw [List.mem_singleton.1 hq]
    simp [two, twoPsr]) 0
  have hlab : labelAll wantBoth 2 [sameSigs] 0 = .ok [("red_noise", [0]), ("red_noise", [1])] := by
    simp [labelAll, sameSigs, labelLoop, wantBoth]
  have hc : (meanOf two + denseDraw lib two (Option.map (fun z : Nat → Nat → ℝ => z 0) none)) = (![1 / 2, 1] : Fin 2 → ℝ) := (add_zero _).trans two_mean
  have hv : condVector lib method [two.p] [] none = .ok (2, concatOf [⟨2, ![1 / 2, 1]⟩]) := by
    have e : psrCoefs lib none [two.p] 0 = .ok [⟨2, ![1 / 2, 1]⟩] := by
      refine hps.trans ?_
      rw [← hc]
      rfl
    unfold condVector
    cases method with
    | other => exact absurd rfl hm
    | _ => simp only [e]; rfl
  rw [condCoefficients, hv]
  simp only [bind, Except.bind, hlab]
  simp [labelled, Dict.ofList, Dict.update, Dict.set, pure, Except.pure, concatOf]

/-- The hypotheses of `C60_last` and `C60_lost` hold for these signals. -/
example : ∃ l, labelAll wantBoth (vecLen (fun _ => ()) [sameSigs]) [sameSigs] 0 = .ok l ∧ (labelled (fun i => (i : ℝ)) l).get? "red_noise_coefficients" ≠ some [0] := by
  have e : place (fun _ => ()) [sameSigs] 0 = [] ++ ("red_noise", [0]) :: [("red_noise", [1])] := by
    rw [place, place, sameSigs_positions]
    rfl
  simpa using C60_lost (fun _ => ()) [sameSigs] (fun p hp => List.mem_singleton.1 hp ▸ sameSigs_plain) (fun p hp => List.mem_singleton.1 hp ▸ sameSigs_distinct) (fun i => (i : ℝ)) Nat.cast_injective e
    (List.mem_singleton.2 rfl) rfl (by simp)

example : ∃ l, labelAll wantBoth (vecLen (fun _ => ()) [sameSigs]) [sameSigs] 0 = .ok l ∧ (labelled (fun i => (i : ℝ)) l).get? "red_noise_coefficients" = some [1] := by
  obtain ⟨l, h1, h2⟩ := C60_last (fun _ => ()) [sameSigs] (fun p hp => List.mem_singleton.1 hp ▸ sameSigs_plain) (fun p hp => List.mem_singleton.1 hp ▸ sameSigs_distinct) (fun i => (i : ℝ))
  refine ⟨l, h1, ?_⟩
  simpa using h2 [("red_noise", [0])] ("red_noise", [1]) [] (by
    rw [place, place, sameSigs_positions]
    rfl) (by simp)

end Verif.Coefficients
