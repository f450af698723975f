import Verif.Tensor.Transpose
/-! C55: concatenation. -/

namespace Verif.Tensor

theorem concatStep_ok (ax k : Nat) (cur d out : List Int) (h : concatStep ax k cur d = .ok out) :
    out.length = cur.length ∧ d.length = cur.length ∧
    ∀ (j : Nat) (c e : Int), cur[j]? = some c → d[j]? = some e →
      ∃ o, out[j]? = some o ∧ (k + j = ax → o = if c = -1 ∨ e = -1 then -1 else c + e) ∧
        (k + j ≠ ax → (c = -1 ∨ e = -1 ∨ c = e) ∧ o = if e = -1 then -1 else c) := by
  induction cur generalizing k d out with
  | nil =>
    cases d with
    | nil => simp [concatStep] at h; subst h; simp
    | cons => simp [concatStep] at h
  | cons c cr ih =>
    cases d with
    | nil => simp [concatStep] at h
    | cons e dr =>
      simp only [concatStep] at h
      by_cases hk : k = ax
      · rw [if_pos hk] at h
        simp only [bind, Except.bind, pure, Except.pure] at h
        split at h
        · cases h
        rename_i rest hrest
        cases h
        obtain ⟨h1, h2, h3⟩ := ih _ _ _ hrest
        refine ⟨by simp [h1], by simp [h2], ?_⟩
        intro j c' e' hc he
        cases j with
        | zero =>
          simp at hc he
          subst hc he
          exact ⟨_, by simp, fun _ => rfl, fun hne => absurd hk (by omega)⟩
        | succ j =>
          obtain ⟨o, ho, ho1, ho2⟩ := h3 j c' e' (by simpa using hc) (by simpa using he)
          exact ⟨o, by simpa using ho, fun hh => ho1 (by omega), fun hh => ho2 (by omega)⟩
      · rw [if_neg hk] at h
        split at h
        · cases h
        rename_i hne
        simp only [bind, Except.bind, pure, Except.pure] at h
        split at h
        · cases h
        rename_i rest hrest
        cases h
        obtain ⟨h1, h2, h3⟩ := ih _ _ _ hrest
        refine ⟨by simp [h1], by simp [h2], ?_⟩
        intro j c' e' hc he
        cases j with
        | zero =>
          simp at hc he
          subst hc he
          refine ⟨_, by simp, fun hh => absurd hh (by omega), fun _ => ⟨?_, rfl⟩⟩
          by_cases h1 : c = -1
          · exact .inl h1
          · by_cases h2 : e = -1
            · exact .inr (.inl h2)
            · exact .inr (.inr (by by_contra h3; exact hne ⟨h1, h2, h3⟩))
        | succ j =>
          obtain ⟨o, ho, ho1, ho2⟩ := h3 j c' e' (by simpa using hc) (by simpa using he)
          exact ⟨o, by simpa using ho, fun hh => ho1 (by omega), fun hh => ho2 (by omega)⟩

/-- Run-time shapes agree outside the axis. -/
def AgreeOff (ax : Nat) (s u : List Nat) : Prop := s.length = u.length ∧ ∀ k, k ≠ ax → s[k]? = u[k]?

theorem concatStep_fits (ax : Nat) (cur d out : List Int) (rc rd : List Nat) (h : concatStep ax 0 cur d = .ok out)
    (hc : Fits rc cur) (hd : Fits rd d) (hag : AgreeOff ax rc rd) (hax : ax < rc.length) :
    Fits (rc.set ax (rc.getD ax 0 + rd.getD ax 0)) out := by
  obtain ⟨h1, h2, h3⟩ := concatStep_ok _ _ _ _ _ h
  obtain ⟨hcl, hcd⟩ := (Fits_iff _ _).1 hc
  obtain ⟨hdl, hdd⟩ := (Fits_iff _ _).1 hd
  refine (Fits_iff _ _).2 ⟨by simp [h1, hcl], ?_⟩
  intro k n o hn ho
  have hk : k < out.length := (List.getElem?_eq_some_iff.1 ho).1
  have ec := List.getElem?_eq_getElem (show k < cur.length by omega)
  have ed := List.getElem?_eq_getElem (show k < d.length by omega)
  have erc := List.getElem?_eq_getElem (show k < rc.length by omega)
  have erd := List.getElem?_eq_getElem (show k < rd.length by omega)
  obtain ⟨o', ho', ho1, ho2⟩ := h3 k _ _ ec ed
  rw [ho] at ho'
  cases ho'
  have fc := hcd k _ _ erc ec
  have fd := hdd k _ _ erd ed
  by_cases hka : k = ax
  · subst hka
    rw [List.getElem?_set_self hax] at hn
    simp [List.getD, erc, erd] at hn
    have := ho1 (by omega)
    rw [this]
    split
    · exact .inl rfl
    · right; omega
  · rw [List.getElem?_set_ne (by omega)] at hn
    rw [erc] at hn
    cases hn
    have hr := hag.2 k hka
    rw [erc, erd] at hr
    obtain ⟨-, h5⟩ := ho2 (by omega)
    rw [h5]
    split
    · exact .inl rfl
    · exact fc

theorem concatLoop_fits {α : Type} (ax : Nat) (ts : List TTy) (as : List (Arr α)) (cur out : List Int) (rc : List Nat)
    (h : concatLoop ax cur ts = .ok out) (hc : Fits rc cur) (hax : ax < rc.length)
    (hf : List.Forall₂ (fun (a : Arr α) (t : TTy) => Fits a.shape t.shape) as ts)
    (hag : ∀ b ∈ as, AgreeOff ax rc b.shape) :
    Fits (rc.set ax (rc.getD ax 0 + (as.map fun b => b.shape.getD ax 0).sum)) out := by
  induction hf generalizing cur rc with
  | nil =>
    simp [concatLoop] at h
    subst h
    simp [List.getD, List.getElem?_eq_getElem hax]
    exact hc
  | @cons b t as ts hbt _ ih =>
    simp only [concatLoop, bind, Except.bind] at h
    split at h
    · cases h
    rename_i cur' hcur
    have hs := concatStep_fits ax cur t.shape cur' rc b.shape hcur hc hbt (hag b (by simp)) hax
    have := ih cur' _ h hs (by simpa using hax) (by
      intro b' hb'
      obtain ⟨g1, g2⟩ := hag b' (by simp [hb'])
      refine ⟨by simp [g1], ?_⟩
      intro k hk
      rw [List.getElem?_set_ne (by omega)]
      exact g2 k hk)
    rw [List.set_set] at this
    have e : (rc.set ax (rc.getD ax 0 + b.shape.getD ax 0)).getD ax 0 = rc.getD ax 0 + b.shape.getD ax 0 := by
      simp [List.getD, List.getElem?_set_self hax]
    rw [e] at this
    simp only [List.map_cons, List.sum_cons]
    rw [← Nat.add_assoc]
    exact this

theorem locate_some (lens : List Nat) (i : Nat) (h : i < lens.sum) :
    ∃ k j d, locate lens i = some (k, j) ∧ lens[k]? = some d ∧ j < d := by
  induction lens generalizing i with
  | nil => simp at h
  | cons d r ih =>
    unfold locate
    by_cases hi : i < d
    · exact ⟨0, i, d, by rw [if_pos hi], by simp, hi⟩
    · rw [if_neg hi]
      obtain ⟨k, j, d', h1, h2, h3⟩ := ih (i - d) (by simp at h; omega)
      exact ⟨k + 1, j, d', by rw [h1]; rfl, by simpa using h2, h3⟩

theorem locate_at (lens : List Nat) (k j d : Nat) (h : lens[k]? = some d) (hj : j < d) :
    locate lens ((lens.take k).sum + j) = some (k, j) := by
  induction lens generalizing k with
  | nil => simp at h
  | cons e r ih =>
    cases k with
    | zero =>
      simp at h
      subst h
      simp [locate, hj]
    | succ k =>
      simp only [List.take_succ_cons, List.sum_cons]
      unfold locate
      rw [if_neg (by omega)]
      have : e + (r.take k).sum + j - e = (r.take k).sum + j := by omega
      rw [this, ih k (by simpa using h)]
      rfl

theorem set0_of_agree (ax : Nat) (s u : List Nat) (h : AgreeOff ax s u) : u.set ax 0 = s.set ax 0 := by
  apply List.ext_getElem?
  intro k
  by_cases hk : k = ax
  · subst hk
    by_cases hl : k < s.length
    · rw [List.getElem?_set_self hl, List.getElem?_set_self (by rw [← h.1]; exact hl)]
    · rw [List.getElem?_eq_none (by simp; have := h.1; omega), List.getElem?_eq_none (by simp; omega)]
  · rw [List.getElem?_set_ne (by omega), List.getElem?_set_ne (by omega), h.2 k hk]

/-- **C55, concat (partial).**  If the rule accepts and the run-time shapes agree outside the axis, the op succeeds,
the result is compatible with the computed type, and element `src` of the `k`-th input is found in the result, shifted
along the axis by the sizes of the earlier inputs.  Missing: with dynamic dimensions the rule does not make the
run-time shapes agree, see `concat_dynamic_violated`; for static inputs see `concat_static_sound`. -/
theorem concat_shape_partial {α : Type} (ts : List TTy) (t' : TTy) (axis : Int) (as : List (Arr α)) (ax : Nat)
    (h : concatAe ts axis = .ok t') (hw : ∀ a ∈ as, a.WF)
    (hf : List.Forall₂ (fun (a : Arr α) (t : TTy) => Fits a.shape t.shape) as ts)
    (hax : ∀ a, as.head? = some a → (if axis ≥ 0 then axis else axis + (a.shape.length : Int)) = (ax : Int))
    (hag : ∀ a ∈ as, ∀ b ∈ as, AgreeOff ax a.shape b.shape) :
    ∃ r, concatImpl as axis = .ok r ∧ Fits r.shape t'.shape ∧ r.WF ∧
      (∀ t ∈ ts, t'.elem = t.elem) ∧
      r.shape[ax]? = some (as.map fun b => b.shape.getD ax 0).sum ∧
      ∀ (k : Nat) (b : Arr α) (src : List Nat), as[k]? = some b → InB src b.shape →
        r.get (src.set ax (((as.take k).map fun c => c.shape.getD ax 0).sum + src.getD ax 0)) = b.get src := by
  cases hf with
  | nil => simp [concatAe] at h
  | @cons a t as ts hat hr =>
  simp only [concatAe] at h
  split at h
  · cases h
  rename_i helem
  simp only [bind, Except.bind] at h
  split at h
  · cases h
  rename_i ax' hax'
  split at h
  · cases h
  rename_i sh hsh
  obtain ⟨ht', -⟩ := mkTensor_ok h
  obtain ⟨hl, -⟩ := (Fits_iff _ _).1 hat
  rw [← hl] at hax'
  obtain ⟨hnp, haxlt⟩ := normAxis_npAxis hax'
  have : ax' = ax := by
    have h1 := (normAxis_eq hax').2
    have h2 := hax a (by simp)
    omega
  subst this
  have hag0 : ∀ b ∈ as, AgreeOff ax' a.shape b.shape := fun b hb => hag a (by simp) b (by simp [hb])
  have hfit := concatLoop_fits ax' ts as t.shape sh a.shape hsh hat haxlt hr hag0
  generalize hL : ((a :: as).map fun b => b.shape.getD ax' 0) = lens at *
  have hsum : a.shape.getD ax' 0 + (as.map fun b => b.shape.getD ax' 0).sum = lens.sum := by
    rw [← hL]; simp
  rw [hsum] at hfit
  have hany : ¬ (as.any (fun b => decide (b.shape.length ≠ a.shape.length) ||
      decide (b.shape.set ax' 0 ≠ a.shape.set ax' 0)) = true) := by
    simp only [List.any_eq_true, not_exists, not_and, Bool.or_eq_true, decide_eq_true_eq, not_or, not_not]
    intro b hb
    exact ⟨(hag0 b hb).1.symm, set0_of_agree _ _ _ (hag0 b hb)⟩
  have hlens : ∀ (k : Nat) (b : Arr α), (a :: as)[k]? = some b → lens[k]? = some (b.shape.getD ax' 0) := by
    intro k b hb
    rw [← hL, List.getElem?_map, hb]
    rfl
  have hag1 : ∀ b ∈ a :: as, AgreeOff ax' a.shape b.shape := fun b hb => hag a (by simp) b hb
  -- moving an index between the result and one part
  have hmove : ∀ (idx : List Nat) (b : Arr α) (j : Nat), b ∈ a :: as → InB idx (a.shape.set ax' lens.sum) →
      j < b.shape.getD ax' 0 → InB (idx.set ax' j) b.shape := by
    intro idx b j hb hi hj
    obtain ⟨g1, g2⟩ := hag1 b hb
    obtain ⟨i1, i2⟩ := (InB_iff_get _ _).1 hi
    refine (InB_iff_get _ _).2 ⟨by simp at i1 ⊢; omega, ?_⟩
    intro k i d hk hd
    by_cases hka : k = ax'
    · subst hka
      rw [List.getElem?_set_self (by simp at i1; omega)] at hk
      cases hk
      rw [List.getD, hd] at hj
      exact hj
    · rw [List.getElem?_set_ne (by omega)] at hk
      apply i2 k i d hk
      rw [List.getElem?_set_ne (by omega), g2 k hka, hd]
  have hidx : ∀ idx, InB idx (a.shape.set ax' lens.sum) → idx.getD ax' 0 < lens.sum := by
    intro idx hi
    obtain ⟨i1, i2⟩ := (InB_iff_get _ _).1 hi
    have hl : ax' < idx.length := by simp at i1; omega
    have e := List.getElem?_eq_getElem hl
    rw [List.getD, e]
    exact i2 ax' _ _ e (List.getElem?_set_self haxlt)
  obtain ⟨r, hr1, hr2, hr3, hr4⟩ := build_total (a.shape.set ax' lens.sum) (fun idx =>
        match locate lens (idx.getD ax' 0) with
        | none => .error .indexError
        | some (k, j) =>
          match (a :: as)[k]? with
          | none => .error .indexError
          | some b => b.get (idx.set ax' j)) (by
      intro idx hi
      obtain ⟨k, j, d, h1, h2, h3⟩ := locate_some lens _ (hidx idx hi)
      simp only [h1]
      cases hb : (a :: as)[k]? with
      | none =>
        rw [← hL, List.getElem?_map, hb] at h2
        simp at h2
      | some b =>
        have := hlens k b hb
        rw [h2] at this
        cases this
        have hm : b ∈ a :: as := List.mem_of_getElem? hb
        exact get_total b (hw b hm) _ (hmove idx b j hm hi h3))
  refine ⟨r, ?_, ?_, hr3, ?_, ?_, ?_⟩
  · simp only [concatImpl, npConcatenate, hnp, bind, Except.bind]
    rw [if_neg hany, hL]
    exact hr1
  · rw [hr2, ht']; exact hfit
  · intro u hu
    rw [ht']
    rcases List.mem_cons.1 hu with rfl | hu
    · rfl
    · simp only [List.any_eq_true, not_exists, not_and, decide_eq_true_eq, not_not] at helem
      exact (helem u hu).symm
  · rw [hr2]
    exact List.getElem?_set_self haxlt
  · intro k b src hk hsrc
    have hm : b ∈ a :: as := List.mem_of_getElem? hk
    obtain ⟨g1, g2⟩ := hag1 b hm
    obtain ⟨s1, s2⟩ := (InB_iff_get _ _).1 hsrc
    have hsl : ax' < src.length := by omega
    have es := List.getElem?_eq_getElem hsl
    have eb := List.getElem?_eq_getElem (show ax' < b.shape.length by omega)
    have hlk := hlens k b hk
    have hbd : b.shape.getD ax' 0 = b.shape[ax']'(by omega) := by simp [List.getD, eb]
    have hsd : src.getD ax' 0 = src[ax'] := by simp [List.getD, es]
    have hsj : src.getD ax' 0 < b.shape.getD ax' 0 := by rw [hbd, hsd]; exact s2 ax' _ _ es eb
    have hloc := locate_at lens k _ _ hlk hsj
    have htk : ((a :: as).take k).map (fun c => c.shape.getD ax' 0) = lens.take k := by
      rw [← hL, List.map_take]
    rw [htk]
    have hlt : (lens.take k).sum + src.getD ax' 0 < lens.sum := by
      have e1 : lens.sum = (lens.take k).sum + (lens.drop k).sum := by
        conv_lhs => rw [← List.take_append_drop k lens]
        rw [List.sum_append]
      obtain ⟨hkl, hke⟩ := List.getElem?_eq_some_iff.1 hlk
      have e2 : (lens.drop k).sum = lens[k] + (lens.drop (k + 1)).sum := by
        rw [← List.getElem_cons_drop hkl, List.sum_cons]
      omega
    have hin : InB (src.set ax' ((lens.take k).sum + src.getD ax' 0)) (a.shape.set ax' lens.sum) := by
      refine (InB_iff_get _ _).2 ⟨by simp; omega, ?_⟩
      intro q i d hi hd
      by_cases hq : q = ax'
      · subst hq
        rw [List.getElem?_set_self hsl] at hi
        rw [List.getElem?_set_self haxlt] at hd
        cases hi; cases hd
        exact hlt
      · rw [List.getElem?_set_ne (by omega)] at hi hd
        exact s2 q i d hi (by rw [← g2 q hq]; exact hd)
    rw [hr4 _ hin]
    have e3 : (src.set ax' ((lens.take k).sum + src.getD ax' 0)).getD ax' 0 = (lens.take k).sum + src.getD ax' 0 := by
      simp [List.getD, List.getElem?_set_self hsl]
    simp only [e3, hloc, hk]
    rw [List.set_set]
    congr 1
    apply List.ext_getElem?
    intro q
    by_cases hq : q = ax'
    · subst hq
      rw [List.getElem?_set_self hsl, es, hsd]
    · rw [List.getElem?_set_ne (by omega)]

/-- Two 2×_ arrays joined along the last axis, the first with a dynamic width. -/
example : concatAe [⟨.other "f32", [2, -1]⟩, ⟨.other "f32", [2, 1]⟩] (-1) = .ok ⟨.other "f32", [2, -1]⟩ ∧
    concatImpl [(⟨[2, 2], [1, 2, 3, 4]⟩ : Arr Nat), ⟨[2, 1], [8, 9]⟩] (-1) = .ok ⟨[2, 3], [1, 2, 8, 3, 4, 9]⟩ ∧
    AgreeOff 1 [2, 2] [2, 1] := by
  refine ⟨by decide, by decide, rfl, ?_⟩
  intro k hk
  rcases k with _ | _ | k
  · rfl
  · exact absurd rfl hk
  · rfl

theorem concatLoop_static (ax : Nat) (cur out : List Int) (ts : List TTy) (h : concatLoop ax cur ts = .ok out)
    (hc : ∀ d ∈ cur, 0 < d) (ht : ∀ t ∈ ts, ∀ d ∈ t.shape, 0 < d) :
    (∀ d ∈ out, 0 < d) ∧ ∀ t ∈ ts, t.shape.length = cur.length ∧ ∀ k, k ≠ ax → t.shape[k]? = cur[k]? := by
  induction ts generalizing cur with
  | nil => simp [concatLoop] at h; subst h; exact ⟨hc, by simp⟩
  | cons t r ih =>
    simp only [concatLoop, bind, Except.bind] at h
    split at h
    · cases h
    rename_i cur' hcur
    obtain ⟨h1, h2, h3⟩ := concatStep_ok _ _ _ _ _ hcur
    have hpt : ∀ (k : Nat) (o : Int), cur'[k]? = some o → ∃ c e, cur[k]? = some c ∧ t.shape[k]? = some e ∧ 0 < c ∧ 0 < e ∧
        (k = ax → o = c + e) ∧ (k ≠ ax → c = e ∧ o = c) := by
      intro k o ho
      have hk : k < cur'.length := (List.getElem?_eq_some_iff.1 ho).1
      have ec := List.getElem?_eq_getElem (show k < cur.length by omega)
      have et := List.getElem?_eq_getElem (show k < t.shape.length by omega)
      obtain ⟨o', ho', h4, h5⟩ := h3 k _ _ ec et
      rw [ho] at ho'
      cases ho'
      have pc := hc _ (List.mem_of_getElem? ec)
      have pt := ht t (by simp) _ (List.mem_of_getElem? et)
      refine ⟨_, _, ec, et, pc, pt, ?_, ?_⟩
      · intro hk
        rw [h4 (by omega), if_neg (by omega)]
      · intro hk
        obtain ⟨h6, h7⟩ := h5 (by omega)
        rw [if_neg (by omega)] at h7
        exact ⟨by omega, h7⟩
    have hc' : ∀ d ∈ cur', 0 < d := by
      intro d hd
      obtain ⟨k, hk⟩ := List.mem_iff_getElem?.1 hd
      obtain ⟨c, e, -, -, h6, h7, h8, h9⟩ := hpt k d hk
      by_cases hka : k = ax
      · rw [h8 hka]; omega
      · rw [(h9 hka).2]; exact h6
    obtain ⟨i1, i2⟩ := ih cur' h hc' (fun u hu => ht u (by simp [hu]))
    refine ⟨i1, ?_⟩
    have hoff : ∀ k, k ≠ ax → cur'[k]? = cur[k]? ∧ t.shape[k]? = cur[k]? := by
      intro k hk
      by_cases hl : k < cur'.length
      · have e := List.getElem?_eq_getElem hl
        obtain ⟨c, d, h4, h5, -, -, -, h9⟩ := hpt k _ e
        rw [e, h4, h5, (h9 hk).1, (h9 hk).2]
        exact ⟨by rw [(h9 hk).1], rfl⟩
      · rw [List.getElem?_eq_none (by omega), List.getElem?_eq_none (by omega), List.getElem?_eq_none (by omega)]
        exact ⟨rfl, rfl⟩
    intro u hu
    rcases List.mem_cons.1 hu with rfl | hu
    · exact ⟨h2, fun k hk => (hoff k hk).2⟩
    · obtain ⟨j1, j2⟩ := i2 u hu
      exact ⟨by omega, fun k hk => by rw [j2 k hk, (hoff k hk).1]⟩

theorem fits_static (rt : List Nat) (decl : List Int) (h : Fits rt decl) (hs : ∀ d ∈ decl, 0 < d) :
    rt.map (fun n : Nat => (n : Int)) = decl := by
  induction h with
  | nil => rfl
  | @cons n d l1 l2 hd _ ih =>
    simp only [List.map_cons]
    rw [ih (fun d hd => hs d (by simp [hd]))]
    have := hs d (by simp)
    rcases hd with hd | hd
    · omega
    · rw [hd]

theorem forall2_mem {α : Type} {as : List (Arr α)} {ts : List TTy}
    (h : List.Forall₂ (fun (a : Arr α) (t : TTy) => Fits a.shape t.shape) as ts) (b : Arr α) (hb : b ∈ as) :
    ∃ u ∈ ts, Fits b.shape u.shape := by
  induction h with
  | nil => simp at hb
  | cons h1 _ ih =>
    rcases List.mem_cons.1 hb with rfl | hb
    · exact ⟨_, by simp, h1⟩
    · obtain ⟨u, hu, hbu⟩ := ih hb
      exact ⟨u, by simp [hu], hbu⟩

/-- **C55, concat of fully static inputs**: whenever the rule accepts, every run succeeds, with exactly the computed
shape. -/
theorem concat_static_sound {α : Type} (ts : List TTy) (t' : TTy) (axis : Int) (as : List (Arr α))
    (h : concatAe ts axis = .ok t') (hs : ∀ t ∈ ts, ∀ d ∈ t.shape, 0 < d) (hw : ∀ a ∈ as, a.WF)
    (hf : List.Forall₂ (fun (a : Arr α) (t : TTy) => Fits a.shape t.shape) as ts) :
    ∃ r, concatImpl as axis = .ok r ∧ r.shape.map (fun n : Nat => (n : Int)) = t'.shape ∧ r.WF := by
  have h0 := h
  cases hf with
  | nil => simp [concatAe] at h
  | @cons a t as ts hat hr =>
  simp only [concatAe] at h
  split at h
  · cases h
  simp only [bind, Except.bind] at h
  split at h
  · cases h
  rename_i ax hax
  split at h
  · cases h
  rename_i sh hsh
  obtain ⟨ht', -⟩ := mkTensor_ok h
  obtain ⟨hl, -⟩ := (Fits_iff _ _).1 hat
  obtain ⟨s1, s2⟩ := concatLoop_static ax t.shape sh ts hsh (hs t (by simp)) (fun u hu => hs u (by simp [hu]))
  have ha := fits_static _ _ hat (hs t (by simp))
  have hagA : ∀ b ∈ a :: as, AgreeOff ax a.shape b.shape := by
    intro b hb
    rcases List.mem_cons.1 hb with rfl | hb
    · exact ⟨rfl, fun _ _ => rfl⟩
    · obtain ⟨u, hu, hbu⟩ : ∃ u ∈ ts, Fits b.shape u.shape := by
        exact forall2_mem hr b hb
      have hb' := fits_static _ _ hbu (hs u (by simp [hu]))
      obtain ⟨j1, j2⟩ := s2 u hu
      refine ⟨?_, ?_⟩
      · have e1 := congrArg List.length ha
        have e2 := congrArg List.length hb'
        simp at e1 e2
        omega
      · intro k hk
        have := j2 k hk
        rw [← ha, ← hb', List.getElem?_map, List.getElem?_map] at this
        cases h1 : a.shape[k]? with
        | none => rw [h1] at this; cases h2 : b.shape[k]? with
          | none => rfl
          | some => rw [h2] at this; simp at this
        | some x => rw [h1] at this; cases h2 : b.shape[k]? with
          | none => rw [h2] at this; simp at this
          | some y => rw [h2] at this; simp at this; rw [this]
  obtain ⟨r, r1, r2, r3, -⟩ := concat_shape_partial (t :: ts) t' axis (a :: as) ax h0 hw (.cons hat hr) (by
      intro a' ha'
      simp at ha'
      subst ha'
      rw [hl]
      exact (normAxis_eq hax).2) (by
      intro b hb c hc
      obtain ⟨b1, b2⟩ := hagA b hb
      obtain ⟨c1, c2⟩ := hagA c hc
      exact ⟨by omega, fun k hk => by rw [← b2 k hk, c2 k hk]⟩)
  refine ⟨r, r1, ?_, r3⟩
  apply fits_static _ _ r2
  rw [ht']
  exact s1

example : concatAe [⟨.other "f32", [2, 2]⟩, ⟨.other "f32", [2, 1]⟩, ⟨.other "f32", [2, 4]⟩] 1
    = .ok ⟨.other "f32", [2, 7]⟩ := by decide

/-- **C55 is violated for dynamic concatenations.**  Two ways: two dynamic widths are accepted and fail at run time
whenever they differ; and a dynamic dimension in between hides a static mismatch — shapes (2), (−1), (3) off the axis
are accepted although no run-time shape whatever makes the op succeed. -/
theorem concat_dynamic_violated :
    concatAe [⟨.other "f32", [1, 2]⟩, ⟨.other "f32", [1, -1]⟩, ⟨.other "f32", [1, 3]⟩] 0 = .ok ⟨.other "f32", [3, -1]⟩ ∧
    ∀ as : List (Arr Nat), List.Forall₂ (fun (a : Arr Nat) (s : List Int) => Fits a.shape s) as
        [[1, 2], [1, -1], [1, 3]] → concatImpl as 0 = .error .valueError := by
  refine ⟨by decide, ?_⟩
  intro as hf
  cases hf with
  | @cons a _ _ _ h1 hf =>
  cases hf with
  | @cons b _ _ _ h2 hf =>
  cases hf with
  | @cons c _ _ _ h3 hf =>
  cases hf
  have ea := fits_static _ _ h1 (by decide)
  have ec := fits_static _ _ h3 (by decide)
  have fa : a.shape = [1, 2] := by
    match ha : a.shape with
    | [] => rw [ha] at ea; simp at ea
    | [_] => rw [ha] at ea; simp at ea
    | [x, y] => rw [ha] at ea; simp at ea; congr <;> omega
    | _ :: _ :: _ :: _ => rw [ha] at ea; simp at ea
  have fc : c.shape = [1, 3] := by
    match ha : c.shape with
    | [] => rw [ha] at ec; simp at ec
    | [_] => rw [ha] at ec; simp at ec
    | [x, y] => rw [ha] at ec; simp at ec; congr <;> omega
    | _ :: _ :: _ :: _ => rw [ha] at ec; simp at ec
  simp [concatImpl, npConcatenate, npAxis, fa, fc, bind, Except.bind]

end Verif.Tensor
