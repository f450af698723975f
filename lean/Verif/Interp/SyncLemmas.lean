import Verif.Interp.Spec
/-! Helper lemmas: synchronous evaluation. -/
namespace Verif.Interp
section
variable {N V : Type} [DecidableEq N]

theorem resolve_congr (e e' : Env N V) (vs : List N) (h : ∀ v ∈ vs, e v = e' v) : resolve e vs = resolve e' vs := by
  induction vs with
  | nil => rfl
  | cons v vs ih =>
    simp only [resolve]
    rw [h v (by simp), ih (fun w hw => h w (by simp [hw]))]

theorem setAll_congr (e e' : Env N V) (bs : List (N × V)) (v : N) (h : e v = e' v) :
    (e.setAll bs) v = (e'.setAll bs) v := by
  induction bs generalizing e e' with
  | nil => exact h
  | cons b bs ih =>
    obtain ⟨w, x⟩ := b
    simp only [Env.setAll]
    apply ih
    simp only [Env.set]; split <;> simp_all

/-- After releasing the operands `vs`, the counter has dropped by the number of occurrences, and every value whose
counter is still positive is still there. -/
theorem gc_fold (vs : List N) (s : Env N V × (N → Nat)) (hc : ∀ v, vs.count v ≤ s.2 v) :
    (∀ v, (vs.foldl gcStep s).2 v = s.2 v - vs.count v) ∧
    (∀ v, 0 < s.2 v - vs.count v → (vs.foldl gcStep s).1 v = s.1 v) ∧
    (∀ v, vs.count v = 0 → (vs.foldl gcStep s).1 v = s.1 v) ∧
    (∀ v x, (vs.foldl gcStep s).1 v = some x → s.1 v = some x) := by
  induction vs generalizing s with
  | nil => simp
  | cons w vs ih =>
    have hw : 0 < s.2 w := by have := hc w; simp at this; omega
    have hc' : ∀ v, vs.count v ≤ (gcStep s w).2 v := by
      intro v
      have := hc v
      simp only [gcStep, hw, if_true]
      simp only [List.count_cons] at this
      by_cases h : v = w
      · subst h; simp at this; simp; omega
      · simp only [h, if_false]; omega
    obtain ⟨h1, h2, h3, h4⟩ := ih (gcStep s w) hc'
    simp only [List.foldl_cons]
    refine ⟨?_, ?_, ?_, ?_⟩
    · intro v
      rw [h1 v]
      simp only [gcStep, hw, if_true, List.count_cons]
      by_cases h : v = w
      · subst h; simp; omega
      · have : (w == v) = false := by simp; exact fun e => h e.symm
        simp [h, this]
    · intro v hv
      simp only [List.count_cons] at hv
      by_cases h : v = w
      · subst h
        simp at hv
        rw [h2 v (by simp [gcStep, hw]; omega)]
        simp only [gcStep, hw, if_true]
        have : s.2 v - 1 ≠ 0 := by omega
        simp [this]
      · have hwv : (w == v) = false := by simp; exact fun e => h e.symm
        simp [hwv] at hv
        rw [h2 v (by simp [gcStep, hw, h]; omega)]
        simp only [gcStep, hw, if_true]
        split
        · simp [Env.erase, h]
        · rfl
    · intro v hv
      simp only [List.count_cons] at hv
      have h : v ≠ w := by
        intro e; subst e; simp at hv
      rw [h3 v (by omega)]
      simp only [gcStep, hw, if_true]
      split
      · simp [Env.erase, h]
      · rfl
    · intro v x hx
      have := h4 v x hx
      simp only [gcStep, hw, if_true] at this
      split at this
      · simp only [Env.erase] at this
        split at this
        · cases this
        · exact this
      · exact this

/-- the release loop agrees with the spec loop on everything that is still needed -/
theorem syncLoop_spec (sem : Sem V) (outs : List N) (ops : List (Op N)) (i : Nat) (e : Env N V)
    (s : Env N V × (N → Nat))
    (hc : ∀ v, s.2 v = (ops.flatMap Op.ins).count v + outs.count v)
    (he : ∀ v, 0 < s.2 v → s.1 v = e v) :
    match syncLoop sem i ops s, specLoop sem i ops e with
    | some s', some e' => ∀ v, v ∈ outs → s'.1 v = e' v
    | none, none => True
    | _, _ => False := by
  induction ops generalizing i e s with
  | nil =>
    simp only [syncLoop, specLoop]
    intro v hv
    apply he
    rw [hc]
    have := List.count_pos_iff.mpr hv
    omega
  | cons op ops ih =>
    simp only [syncLoop, specLoop]
    have hres : resolve s.1 op.ins = resolve e op.ins := by
      apply resolve_congr
      intro v hv
      apply he
      rw [hc]
      have := List.count_pos_iff.mpr hv
      simp only [List.flatMap_cons, List.count_append]
      omega
    rw [hres]
    cases resolve e op.ins with
    | none => trivial
    | some args =>
      simp only
      cases sem.impl i with
      | false => simp
      | true =>
        simp only [if_true]
        cases sem.run i args with
        | none => trivial
        | some res =>
          simp only
          cases bindOuts sem op.outs res with
          | none => trivial
          | some bs =>
            simp only
            have hle : ∀ v, op.ins.count v ≤ s.2 v := by
              intro v; rw [hc]; simp only [List.flatMap_cons, List.count_append]; omega
            obtain ⟨g1, g2, g3, g4⟩ := gc_fold op.ins (s.1.setAll bs, s.2) hle
            apply ih
            · intro v
              rw [g1]
              simp only [hc, List.flatMap_cons, List.count_append]
              omega
            · intro v hv
              rw [g1] at hv
              rw [g2 v hv]
              apply setAll_congr
              apply he
              simp only at hv; omega

theorem setAll_not_mem (e : Env N V) (bs : List (N × V)) (v : N) (h : v ∉ bs.map Prod.fst) :
    (e.setAll bs) v = e v := by
  induction bs generalizing e with
  | nil => rfl
  | cons b bs ih =>
    obtain ⟨w, x⟩ := b
    simp only [List.map_cons, List.mem_cons, not_or] at h
    simp only [Env.setAll]
    rw [ih _ h.2]
    simp [Env.set, h.1]

theorem setAll_mem_isSome (e : Env N V) (bs : List (N × V)) (v : N) (h : v ∈ bs.map Prod.fst) :
    ((e.setAll bs) v).isSome = true := by
  induction bs generalizing e with
  | nil => simp at h
  | cons b bs ih =>
    obtain ⟨w, x⟩ := b
    simp only [Env.setAll]
    by_cases hm : v ∈ bs.map Prod.fst
    · exact ih _ hm
    · rw [setAll_not_mem _ _ _ hm]
      simp only [List.map_cons, List.mem_cons] at h
      have : v = w := h.resolve_right hm
      simp [Env.set, this]

theorem setAll_mem_eq (e : Env N V) (bs : List (N × V)) (hn : (bs.map Prod.fst).Nodup) (v : N) (x : V)
    (h : (v, x) ∈ bs) : (e.setAll bs) v = some x := by
  induction bs generalizing e with
  | nil => simp at h
  | cons b bs ih =>
    obtain ⟨w, y⟩ := b
    simp only [List.map_cons, List.nodup_cons] at hn
    simp only [Env.setAll]
    rcases List.mem_cons.mp h with h | h
    · cases h
      rw [setAll_not_mem _ _ _ hn.1]
      simp [Env.set]
    · exact ih _ hn.2 h

theorem bindOuts_fst (sem : Sem V) (outs : List N) (r : V) (bs : List (N × V)) (h : bindOuts sem outs r = some bs) :
    bs.map Prod.fst = outs := by
  simp only [bindOuts] at h
  split at h
  · cases h; rfl
  · cases h; rfl
  · split at h; · cases h
    split at h
    · rename_i hl
      cases h
      exact List.map_fst_zip (by omega)
    · cases h

theorem resolve_isSome_iff (e : Env N V) (vs : List N) :
    (resolve e vs).isSome = true ↔ ∀ v ∈ vs, (e v).isSome = true := by
  induction vs with
  | nil => simp [resolve]
  | cons v vs ih =>
    simp only [resolve, List.mem_cons, forall_eq_or_imp, ← ih]
    cases e v with
    | none => simp
    | some x => cases resolve e vs <;> simp

theorem initEnv_isSome (g : Graph N) (args : List V) (env : Env N V) (h : initEnv g args = some env) (v : N)
    (hv : v ∈ g.inputs) : (env v).isSome = true := by
  simp only [initEnv] at h
  split at h
  · rename_i hl
    cases h
    apply setAll_mem_isSome
    rw [List.map_fst_zip (by omega)]; exact hv
  · cases h

end
end Verif.Interp
