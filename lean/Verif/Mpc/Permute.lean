import Verif.Mpc.Bitonic
import Mathlib.Tactic.Linarith
/-
Correctness of the oblivious permutation (C52) over the model in `Verif.Mpc.Bitonic`.
-/
namespace Verif.Mpc

variable {α : Type}

/-- The destinations and the data moved together through a schedule. -/
def pairRun (n : Nat) : List (Nat × Nat) → (Nat → Nat) → (Nat → α) → (Nat → Nat) × (Nat → α)
  | [], cur, f => (cur, f)
  | (s, d) :: rest, cur, f =>
    pairRun n rest (localStep n d (stepCtrl n s d cur) cur) (localStep n d (stepCtrl n s d cur) f)

theorem slice_mid (pre c post : List Bool) : stepSlice (pre ++ (c ++ post)) pre.length c.length = c := by
  simp [stepSlice]

theorem runLocal_gen (n : Nat) : ∀ (l : List (Nat × Nat)) (pre : List Bool) (cur : Nat → Nat) (f : Nat → α),
    runLocal n (pre ++ genControls n l cur) l pre.length f = (pairRun n l cur f).2 := by
  intro l
  induction l with
  | nil => intro pre cur f; rfl
  | cons e l ih =>
    intro pre cur f
    obtain ⟨s, d⟩ := e
    have hlen : (stepCtrl n s d cur).length = (lowIx n d).length := by simp [stepCtrl]
    simp only [runLocal, genControls, pairRun]
    have h1 := slice_mid pre (stepCtrl n s d cur) (genControls n l (localStep n d (stepCtrl n s d cur) cur))
    rw [hlen] at h1
    rw [h1, ← List.append_assoc]
    have h2 := ih (pre ++ stepCtrl n s d cur) (localStep n d (stepCtrl n s d cur) cur)
      (localStep n d (stepCtrl n s d cur) f)
    rw [List.length_append, hlen] at h2
    exact h2

/-- The steps of a schedule for `2 ^ k` elements. -/
def Valid (k : Nat) (l : List (Nat × Nat)) : Prop := ∀ e ∈ l, ∃ j : Nat, j ≤ e.1 ∧ e.1 < k ∧ e.2 = 2 ^ j

theorem schedule_valid (k : Nat) : Valid k (schedule k) := by
  intro e he
  simp only [schedule, List.mem_flatMap, List.mem_range, List.mem_map] at he
  obtain ⟨s, hs, t, ht, rfl⟩ := he
  exact ⟨s - t, by simp, hs, rfl⟩

/-- Invariant: position `p` holds an element whose destination is `cur p`. -/
structure Inv (n : Nat) (src : Nat → α) (perm : Nat → Nat) (cur : Nat → Nat) (f : Nat → α) : Prop where
  bound : ∀ p < n, cur p < n
  inj : ∀ p < n, ∀ q < n, cur p = cur q → p = q
  val : ∀ p < n, f p = src (perm (cur p))

theorem inv_congr {n : Nat} {src : Nat → α} {perm cur cur' : Nat → Nat} {f f' : Nat → α}
    (h : Inv n src perm cur f) (hc : ∀ p < n, cur' p = cur p) (hf : ∀ p < n, f' p = f p) :
    Inv n src perm cur' f' := by
  refine ⟨fun p hp => ?_, fun p hp q hq e => ?_, fun p hp => ?_⟩
  · rw [hc p hp]; exact h.bound p hp
  · rw [hc p hp, hc q hq] at e; exact h.inj p hp q hq e
  · rw [hc p hp, hf p hp]; exact h.val p hp

theorem inv_step {k j : Nat} (hj : j < k) (c : Nat → Bool) {src : Nat → α} {perm cur : Nat → Nat}
    {f : Nat → α} (h : Inv (2 ^ k) src perm cur f) :
    Inv (2 ^ k) src perm (stepFn (2 ^ j) c cur) (stepFn (2 ^ j) c f) := by
  have hx : ∀ p < 2 ^ k, p ^^^ 2 ^ j < 2 ^ k := fun p hp => xor_lt k j p hj hp
  refine ⟨fun p hp => ?_, fun p hp q hq e => ?_, fun p hp => ?_⟩
  · simp only [stepFn]
    split
    · exact h.bound _ (hx p hp)
    · exact h.bound p hp
  · have hmin : ∀ a : Nat, min (a ^^^ 2 ^ j) ((a ^^^ 2 ^ j) ^^^ 2 ^ j) = min a (a ^^^ 2 ^ j) := fun a => by
      rw [xor_cancel, Nat.min_comm]
    simp only [stepFn] at e
    by_cases h1 : c (min p (p ^^^ 2 ^ j)) = true <;> by_cases h2 : c (min q (q ^^^ 2 ^ j)) = true
    · rw [if_pos h1, if_pos h2] at e
      have := h.inj _ (hx p hp) _ (hx q hq) e
      rw [← xor_cancel p (2 ^ j), this, xor_cancel]
    · rw [if_pos h1, if_neg h2] at e
      have := h.inj _ (hx p hp) _ hq e
      rw [← this, hmin] at h2
      exact absurd h1 h2
    · rw [if_neg h1, if_pos h2] at e
      have := h.inj _ hp _ (hx q hq) e
      rw [this, hmin] at h1
      exact absurd h2 h1
    · rw [if_neg h1, if_neg h2] at e
      exact h.inj _ hp _ hq e
  · simp only [stepFn]
    split
    · exact h.val _ (hx p hp)
    · exact h.val p hp

theorem inv_run {k : Nat} {src : Nat → α} {perm : Nat → Nat} : ∀ (l : List (Nat × Nat)) (cur : Nat → Nat) (f : Nat → α),
    Valid k l → Inv (2 ^ k) src perm cur f →
    Inv (2 ^ k) src perm (pairRun (2 ^ k) l cur f).1 (pairRun (2 ^ k) l cur f).2 := by
  intro l
  induction l with
  | nil => intro cur f _ h; exact h
  | cons e l ih =>
    intro cur f hv h
    obtain ⟨s, d⟩ := e
    obtain ⟨j, hj, hs, hd⟩ := hv (s, d) (by simp)
    simp only at hj hs hd
    subst hd
    simp only [pairRun]
    refine ih _ _ (fun e he => hv e (by simp [he])) ?_
    exact inv_congr (inv_step (j := j) (by omega) (shouldSwap s (2 ^ j) cur) h)
      (fun p hp => localStep_eq _ _ _ _ p hp) (fun p hp => localStep_eq _ _ _ _ p hp)

/-- Thresholding commutes with a step. -/
theorem thr_step (s j t p : Nat) (hj : j ≤ s) (cur : Nat → Nat) :
    decide (t ≤ stepFn (2 ^ j) (shouldSwap s (2 ^ j) cur) cur p)
      = bstep s (2 ^ j) (fun q => decide (t ≤ cur q)) p := by
  have hne := xor_ne p j
  have ha := ascAt_xor s j p hj
  unfold stepFn bstep shouldSwap
  rcases Nat.lt_or_gt_of_ne hne with h | h
  · rw [Nat.min_eq_right h.le, ha, xor_cancel]
    have h' : ¬ (p < p ^^^ 2 ^ j) := by omega
    simp only [h']
    cases ascAt s p
    · by_cases hc : cur (p ^^^ 2 ^ j) < cur p
      · simp [hc]; omega
      · simp [hc]; omega
    · by_cases hc : cur (p ^^^ 2 ^ j) > cur p
      · simp [hc]; omega
      · simp [hc]; omega
  · rw [Nat.min_eq_left h.le]
    have h' : p < p ^^^ 2 ^ j := h
    simp only [h']
    cases ascAt s p
    · by_cases hc : cur p < cur (p ^^^ 2 ^ j)
      · simp [hc]; omega
      · simp [hc]; omega
    · by_cases hc : cur p > cur (p ^^^ 2 ^ j)
      · simp [hc]; omega
      · simp [hc]; omega

theorem thr_run {k : Nat} (t : Nat) : ∀ (l : List (Nat × Nat)) (cur : Nat → Nat) (f : Nat → α) (x : Nat → Bool),
    Valid k l → (∀ p < 2 ^ k, decide (t ≤ cur p) = x p) →
    ∀ p < 2 ^ k, decide (t ≤ (pairRun (2 ^ k) l cur f).1 p) = brun l x p := by
  intro l
  induction l with
  | nil => intro cur f x _ h; exact h
  | cons e l ih =>
    intro cur f x hv h
    obtain ⟨s, d⟩ := e
    obtain ⟨j, hj, hs, hd⟩ := hv (s, d) (by simp)
    simp only at hj hs hd
    subst hd
    simp only [pairRun]
    show ∀ p < 2 ^ k, _ = brun l (bstep s (2 ^ j) x) p
    refine ih _ _ _ (fun e he => hv e (by simp [he])) ?_
    intro p hp
    rw [stepCtrl, localStep_eq _ _ _ _ p hp, thr_step s j t p hj cur]
    simp only [bstep, h p hp, h _ (xor_lt k j p (by omega) hp)]

/-- A strictly increasing self map of `[0, n)` is the identity. -/
theorem sorted_id (n : Nat) (cur : Nat → Nat) (hb : ∀ p < n, cur p < n)
    (hm : ∀ p q : Nat, p < q → q < n → cur p < cur q) : ∀ p < n, cur p = p := by
  have lo : ∀ p < n, p ≤ cur p := by
    intro p
    induction p with
    | zero => intro _; omega
    | succ p ih =>
      intro hp
      have := ih (by omega)
      have := hm p (p + 1) (by omega) hp
      omega
  have hi : ∀ m p : Nat, p + m + 1 = n → cur p ≤ p := by
    intro m
    induction m with
    | zero => intro p hp; have := hb p (by omega); omega
    | succ m ih =>
      intro p hp
      have := ih (p + 1) (by omega)
      have := hm p (p + 1) (by omega) (by omega)
      omega
  intro p hp
  have := lo p hp
  have := hi (n - p - 1) p (by omega)
  omega

/-- Moving the data through the whole schedule sends every element to its destination. -/
theorem run_sorts {k : Nat} {src : Nat → α} {perm cur : Nat → Nat} {f : Nat → α}
    (h : Inv (2 ^ k) src perm cur f) :
    ∀ p < 2 ^ k, (pairRun (2 ^ k) (schedule k) cur f).1 p = p ∧
      (pairRun (2 ^ k) (schedule k) cur f).2 p = src (perm p) := by
  have hv := schedule_valid k
  have hI := inv_run (schedule k) cur f hv h
  have hm : ∀ p q : Nat, p < q → q < 2 ^ k →
      (pairRun (2 ^ k) (schedule k) cur f).1 p < (pairRun (2 ^ k) (schedule k) cur f).1 q := by
    intro p q hpq hq
    have hle : (pairRun (2 ^ k) (schedule k) cur f).1 p ≤ (pairRun (2 ^ k) (schedule k) cur f).1 q := by
      set t := (pairRun (2 ^ k) (schedule k) cur f).1 p with ht
      have e := thr_run t (schedule k) cur f (fun r => decide (t ≤ cur r)) hv (fun _ _ => rfl)
      have hs := brun_schedule k 0 (fun r => decide (t ≤ cur r))
      rw [if_pos rfl] at hs
      obtain ⟨a, hs⟩ := hs
      simp only [Nat.mul_zero, Nat.zero_add] at hs
      have h1 := e p (by omega)
      have h2 := e q hq
      rw [hs p (by omega), ← ht] at h1
      rw [hs q hq] at h2
      simp at h1 h2
      omega
    have hne : (pairRun (2 ^ k) (schedule k) cur f).1 p ≠ (pairRun (2 ^ k) (schedule k) cur f).1 q := by
      intro he
      have := hI.inj p (by omega) q hq he
      omega
    omega
  have hid := sorted_id _ _ hI.bound hm
  intro p hp
  refine ⟨hid p hp, ?_⟩
  rw [hI.val p hp, hid p hp]

/-! ### The first step through oblivious transfer -/

variable {A : Type} [AddCommGroup A] [DecidableEq A]
variable {M Ct Key Nonce : Type}

theorem batch_chosen (dr : OtDraws Nonce) (ix : List Nat) (f g : Nat → M) (b : Nat → Int) :
    (otBatch dr (ix.map f) (ix.map g) (ix.map b)).map chosen
      = ix.map fun i => if b i = 1 then g i else f i := by
  apply List.ext_getElem
  · simp [otBatch]
  · intro i h1 h2
    simp [otBatch, chosen]

theorem batch_choice (dr : OtDraws Nonce) (ix : List Nat) (f g : Nat → M) (b : Nat → Int) :
    ∀ e ∈ otBatch dr (ix.map f) (ix.map g) (ix.map b), ∃ i : Nat, e.choice = b i ∧
      ∃ m : Nat, e.k = dr.k m ∧ e.r0 = dr.r0 m ∧ e.r1 = dr.r1 m := by
  intro e he
  obtain ⟨m, hm, rfl⟩ := List.getElem_of_mem he
  simp only [otBatch, List.getElem_mapIdx, List.getElem_zip, List.getElem_map]
  exact ⟨_, rfl, m, rfl, rfl, rfl⟩

/-- What the two transfers of a secure switch deliver. -/
theorem secure_switch_ok (C : Curve A) (hC : CurveOk C) (S : Sym A M Ct Key Nonce)
    (hS : ∀ k n m, S.dec k (S.enc k n m) = some m) (dr0 dr1 : OtDraws Nonce)
    (ix : List Nat) (f g : Nat → M) (c : Nat → Bool) (y0 y1 : List M)
    (h : secureSwitch C S dr0 dr1 (ix.map f) (ix.map g) (ix.map c) = .ok (y0, y1)) :
    y0 = ix.map (fun i => if c i then g i else f i) ∧
      y1 = ix.map (fun i => if c i then f i else g i) := by
  simp only [secureSwitch, List.map_map] at h
  split at h
  · cases h
  · next z0 h0 =>
    split at h
    · cases h
    · next z1 h1 =>
      simp only [Except.ok.injEq, Prod.mk.injEq] at h
      obtain ⟨rfl, rfl⟩ := h
      have r0 := base_ot_correct C hC S hS dr0.r _ (fun e he => by
        obtain ⟨i, hi, _⟩ := batch_choice dr0 ix f g (bitInt ∘ c) e he
        rw [hi]; simp only [Function.comp, bitInt]; cases c i <;> simp) _ h0
      have r1 := base_ot_correct C hC S hS dr1.r _ (fun e he => by
        obtain ⟨i, hi, _⟩ := batch_choice dr1 ix f g ((fun b => 1 - bitInt b) ∘ c) e he
        rw [hi]; simp only [Function.comp, bitInt]; cases c i <;> simp) _ h1
      rw [r0, r1, batch_chosen, batch_chosen]
      constructor
      · apply List.map_congr_left
        intro i _
        by_cases hc : c i = true <;> simp [bitInt, hc]
      · apply List.map_congr_left
        intro i _
        by_cases hc : c i = true <;> simp [bitInt, hc]

/-- The draws of a batch avoid the coincidences on which a curve operation raises. -/
def DrawsOk (C : Curve A) (dr : OtDraws Nonce) : Prop :=
  ∀ i : Nat, dr.k i % C.N ≠ 0 ∧ (dr.r - dr.k i) % C.N ≠ 0 ∧ (dr.r - 2 * dr.k i) % C.N ≠ 0 ∧
    dr.r0 i % C.N ≠ 0 ∧ dr.r1 i % C.N ≠ 0 ∧ (dr.r0 i - dr.r1 i) % C.N ≠ 0

theorem secure_switch_total (C : Curve A) (hC : CurveOk C) (S : Sym A M Ct Key Nonce)
    (hS : ∀ k n m, S.dec k (S.enc k n m) = some m) (dr0 dr1 : OtDraws Nonce)
    (h0 : DrawsOk C dr0) (h1 : DrawsOk C dr1)
    (ix : List Nat) (f g : Nat → M) (c : Nat → Bool) :
    ∃ y0 y1, secureSwitch C S dr0 dr1 (ix.map f) (ix.map g) (ix.map c) = .ok (y0, y1) := by
  have t : ∀ (dr : OtDraws Nonce) (b : Nat → Int), DrawsOk C dr → (∀ i, b i = 0 ∨ b i = 1) →
      transfer C S dr.r (otBatch dr (ix.map f) (ix.map g) (ix.map b))
        = .ok ((otBatch dr (ix.map f) (ix.map g) (ix.map b)).map chosen) := by
    intro dr b hd hb
    refine base_ot_total C hC S hS dr.r _ (fun e he => ?_) (fun e he => ?_)
    · obtain ⟨i, hi, _⟩ := batch_choice dr ix f g b e he
      rw [hi]; exact hb i
    · obtain ⟨_, _, m, e1, e2, e3⟩ := batch_choice dr ix f g b e he
      obtain ⟨a1, a2, a3, a4, a5, a6⟩ := hd m
      exact ⟨by rw [e1]; exact a1, by rw [e1]; exact a2, by rw [e1]; exact a3, by rw [e2]; exact a4,
        by rw [e3]; exact a5, by rw [e2, e3]; exact a6⟩
  simp only [secureSwitch, List.map_map]
  rw [t dr0 (bitInt ∘ c) h0 (fun i => by simp only [Function.comp, bitInt]; cases c i <;> simp),
    t dr1 ((fun b => 1 - bitInt b) ∘ c) h1
      (fun i => by simp only [Function.comp, bitInt]; cases c i <;> simp)]
  exact ⟨_, _, rfl⟩

/-- The whole network: what the receiver ends up with. -/
theorem network_ok (C : Curve A) (hC : CurveOk C) (S : Sym A M Ct Key Nonce)
    (hS : ∀ k n m, S.dec k (S.enc k n m) = some m) (dr0 dr1 : OtDraws Nonce) (zero : M)
    (k : Nat) (src : Nat → M) (perm cur : Nat → Nat) (hI : Inv (2 ^ k) src perm cur src) (out : Nat → M)
    (h : runNetwork C S dr0 dr1 zero (2 ^ k) (genControls (2 ^ k) (schedule k) cur) src (schedule k) = .ok out) :
    ∀ p < 2 ^ k, out p = src (perm p) := by
  have sorts := @run_sorts M k src perm cur
  cases hs : schedule k with
  | nil =>
    rw [hs] at h
    simp only [runNetwork, Except.ok.injEq] at h
    subst h
    intro p hp
    have := (sorts hI p hp).2
    rw [hs] at this
    exact this
  | cons e rest =>
    obtain ⟨s, d⟩ := e
    have hv := schedule_valid k
    rw [hs] at hv h
    obtain ⟨j, hj, hsk, hd⟩ := hv (s, d) (by simp)
    simp only at hj hsk hd
    subst hd
    have hlen : (stepCtrl (2 ^ k) s (2 ^ j) cur).length = (lowIx (2 ^ k) (2 ^ j)).length := by simp [stepCtrl]
    have hsl := slice_mid [] (stepCtrl (2 ^ k) s (2 ^ j) cur)
      (genControls (2 ^ k) rest (localStep (2 ^ k) (2 ^ j) (stepCtrl (2 ^ k) s (2 ^ j) cur) cur))
    rw [hlen] at hsl
    simp only [List.nil_append, List.length_nil] at hsl
    simp only [runNetwork, genControls] at h
    rw [hsl] at h
    split at h
    · cases h
    · next yi yj hsw =>
      simp only [Except.ok.injEq] at h
      obtain ⟨rfl, rfl⟩ := secure_switch_ok C hC S hS dr0 dr1 (lowIx (2 ^ k) (2 ^ j)) src
        (fun i => src (i ^^^ 2 ^ j)) (shouldSwap s (2 ^ j) cur) yi yj hsw
      rw [← hlen, runLocal_gen] at h
      set g : Nat → M := scatter (scatter (fun _ => zero)
        ((lowIx (2 ^ k) (2 ^ j)).zip ((lowIx (2 ^ k) (2 ^ j)).map fun i =>
          if shouldSwap s (2 ^ j) cur i then src (i ^^^ 2 ^ j) else src i)))
        (((lowIx (2 ^ k) (2 ^ j)).map (· ^^^ 2 ^ j)).zip ((lowIx (2 ^ k) (2 ^ j)).map fun i =>
          if shouldSwap s (2 ^ j) cur i then src i else src (i ^^^ 2 ^ j))) with hg
      have hgv : ∀ p < 2 ^ k, g p = stepFn (2 ^ j) (shouldSwap s (2 ^ j) cur) src p := by
        intro p hp
        have z2 : ((lowIx (2 ^ k) (2 ^ j)).map (· ^^^ 2 ^ j)).zip ((lowIx (2 ^ k) (2 ^ j)).map fun i =>
          if shouldSwap s (2 ^ j) cur i then src i else src (i ^^^ 2 ^ j))
            = (lowIx (2 ^ k) (2 ^ j)).map fun i => (i ^^^ 2 ^ j,
              if shouldSwap s (2 ^ j) cur i then src i else src (i ^^^ 2 ^ j)) := by
          rw [List.zip_map', ]
        rw [hg, zip_map_self, z2]
        exact scatter_step (2 ^ k) j (shouldSwap s (2 ^ j) cur) src (fun _ => zero) p hp
      -- run the whole schedule on an extension of the data and compare
      have hI1 : Inv (2 ^ k) src perm (localStep (2 ^ k) (2 ^ j) (stepCtrl (2 ^ k) s (2 ^ j) cur) cur) g :=
        inv_congr (inv_step (j := j) (by omega) (shouldSwap s (2 ^ j) cur) hI)
          (fun p hp => localStep_eq _ _ _ _ p hp) hgv
      have hI2 := inv_run rest _ _ (fun e he => hv e (by simp [he])) hI1
      intro p hp
      rw [← h, hI2.val p hp]
      have hcur : ∀ (f f' : Nat → M) (l : List (Nat × Nat)) (c : Nat → Nat),
          (pairRun (2 ^ k) l c f).1 = (pairRun (2 ^ k) l c f').1 := by
        intro f f' l
        induction l generalizing f f' with
        | nil => intro c; rfl
        | cons e l ih => intro c; exact ih _ _ _
      have := (sorts hI p hp).1
      rw [hs] at this
      simp only [pairRun] at this
      rw [hcur g (localStep (2 ^ k) (2 ^ j) (stepCtrl (2 ^ k) s (2 ^ j) cur) src) rest, this]

/-- The initial destinations invert a permutation. -/
theorem destOf_spec (n : Nat) (perm : Nat → Nat) (hinj : ∀ i < n, ∀ j < n, perm i = perm j → i = j)
    (i : Nat) (hi : i < n) : destOf n perm (perm i) = i := by
  have gen : ∀ (l : List Nat) (f : Nat → Nat), (∀ a ∈ l, a < n) → (i ∈ l ∨ f (perm i) = i) →
      scatter f (l.map fun i => (perm i, i)) (perm i) = i := by
    intro l
    induction l with
    | nil => intro f _ h; simpa [scatter] using h
    | cons a l ih =>
      intro f hl h
      show scatter (fun q => if q = perm a then a else f q) (l.map fun i => (perm i, i)) (perm i) = i
      apply ih _ (fun b hb => hl b (by simp [hb]))
      by_cases ha : i = a
      · subst ha; right; simp
      · have hpa : perm i ≠ perm a := fun e => ha (hinj i hi a (hl a (by simp)) e)
        rcases h with h | h
        · rcases List.mem_cons.mp h with h | h
          · exact absurd h ha
          · exact Or.inl h
        · right; simp [hpa, h]
  exact gen _ _ (fun a ha => by simpa using ha) (Or.inl (by simpa using hi))

/-- The array the receiver holds is read back through `perm` (spec of gathering). -/
def Gathers (data : List M) (perm : List Nat) (out : List M) : Prop :=
  out.length = data.length ∧
    ∀ (i : Nat) (src : Nat), perm[i]? = some src → out[i]? = data[src]?

theorem pad_le (n : Nat) : n ≤ 2 ^ padExp n :=
  (Nat.le_max_left n 2).trans (Nat.le_pow_clog (by omega) _)

/-- The padded permutation on positions. -/
theorem padded_facts (data : List M) (perm : List Nat) (hp : perm.Perm (List.range data.length)) (np : Nat)
    (hn : data.length ≤ np) :
    (∀ i < np, (perm ++ List.range' data.length (np - data.length)).getD i 0 < np) ∧
    (∀ i < np, ∀ j < np, (perm ++ List.range' data.length (np - data.length)).getD i 0
      = (perm ++ List.range' data.length (np - data.length)).getD j 0 → i = j) := by
  have hP : (perm ++ List.range' data.length (np - data.length)).Perm (List.range np) := by
    have h1 := hp.append_right (List.range' data.length (np - data.length))
    refine h1.trans ?_
    rw [List.range_eq_range', List.range_eq_range']
    have := List.range'_append (s := 0) (m := data.length) (n := np - data.length) (step := 1)
    simp only [Nat.zero_add, Nat.one_mul] at this
    rw [this, Nat.add_sub_cancel' hn]
  have hlen := hP.length_eq
  rw [List.length_range] at hlen
  have hnd : (perm ++ List.range' data.length (np - data.length)).Nodup :=
    hP.nodup_iff.mpr List.nodup_range
  constructor
  · intro i hi
    have : (perm ++ List.range' data.length (np - data.length)).getD i 0 ∈ List.range np := by
      rw [List.getD_eq_getElem _ _ (by omega)]
      exact hP.subset (List.getElem_mem _)
    simpa using this
  · intro i hi j hj e
    rw [List.getD_eq_getElem _ _ (by omega), List.getD_eq_getElem _ _ (by omega)] at e
    exact (List.Nodup.getElem_inj_iff hnd).mp e

theorem start_inv (np : Nat) (dat : Nat → M) (prm : Nat → Nat) (hb : ∀ i < np, prm i < np)
    (hinj : ∀ i < np, ∀ j < np, prm i = prm j → i = j) :
    Inv np dat prm (destOf np prm) dat := by
  -- every position is hit
  have hsur : ∀ p < np, ∃ i < np, prm i = p := by
    intro p hp
    have hfin : Function.Surjective (fun i : Fin np => (⟨prm i, hb i i.2⟩ : Fin np)) := by
      apply Finite.surjective_of_injective
      intro a b e
      exact Fin.ext (hinj a a.2 b b.2 (Fin.mk.inj e))
    obtain ⟨i, hi⟩ := hfin ⟨p, hp⟩
    exact ⟨i, i.2, Fin.mk.inj hi⟩
  refine ⟨fun p hp => ?_, fun p hp q hq e => ?_, fun p hp => ?_⟩
  · obtain ⟨i, hi, rfl⟩ := hsur p hp
    rw [destOf_spec np prm hinj i hi]; exact hi
  · obtain ⟨i, hi, rfl⟩ := hsur p hp
    obtain ⟨j, hj, rfl⟩ := hsur q hq
    rw [destOf_spec np prm hinj i hi, destOf_spec np prm hinj j hj] at e
    rw [e]
  · obtain ⟨i, hi, rfl⟩ := hsur p hp
    rw [destOf_spec np prm hinj i hi]

/-- **C52**: for every array, every permutation of its indices and every outcome of the random
draws, if the protocol returns then the receiver holds exactly `out[i] = data[perm[i]]`. -/
theorem apply_permutation_correct (C : Curve A) (hC : CurveOk C) (S : Sym A M Ct Key Nonce)
    (hS : ∀ k n m, S.dec k (S.enc k n m) = some m) (dr0 dr1 : OtDraws Nonce) (zero : M)
    (data : List M) (perm : List Nat) (hp : perm.Perm (List.range data.length)) (out : List M)
    (h : applyPermutation C S dr0 dr1 zero data perm = .ok out) : Gathers data perm out := by
  have hn := pad_le data.length
  obtain ⟨hb, hinj⟩ := padded_facts data perm hp (2 ^ padExp data.length) hn
  simp only [applyPermutation] at h
  split at h
  · cases h
  · next o ho =>
    simp only [Except.ok.injEq] at h
    have hI := start_inv (2 ^ padExp data.length)
      (fun i => (data ++ List.replicate (2 ^ padExp data.length - data.length) zero).getD i zero)
      (fun i => (perm ++ List.range' data.length (2 ^ padExp data.length - data.length)).getD i 0) hb hinj
    have key := network_ok C hC S hS dr0 dr1 zero (padExp data.length) _ _ _ hI o ho
    subst h
    refine ⟨by simp [hn], ?_⟩
    intro i src hi
    have hlp : perm.length = data.length := by simpa using hp.length_eq
    have hil : i < data.length := by
      have := (List.getElem?_eq_some_iff.mp hi).1
      omega
    have hsrc : src < data.length := by
      have : src ∈ List.range data.length := hp.subset (List.mem_of_getElem? hi)
      simpa using this
    rw [List.getElem?_take_of_lt hil, List.getElem?_map, List.getElem?_range (by omega)]
    simp only [Option.map_some]
    rw [key i (by omega)]
    have e1 : (perm ++ List.range' data.length (2 ^ padExp data.length - data.length)).getD i 0 = src := by
      rw [List.getD_append _ _ _ _ (by omega), List.getD_eq_getElem?_getD, hi]; rfl
    simp only [e1]
    rw [List.getD_append _ _ _ _ hsrc, List.getD_eq_getElem?_getD, List.getElem?_eq_getElem hsrc]
    rfl

/-- **C52**: for ordinary draws the protocol returns. -/
theorem apply_permutation_total (C : Curve A) (hC : CurveOk C) (S : Sym A M Ct Key Nonce)
    (hS : ∀ k n m, S.dec k (S.enc k n m) = some m) (dr0 dr1 : OtDraws Nonce)
    (h0 : DrawsOk C dr0) (h1 : DrawsOk C dr1) (zero : M)
    (data : List M) (perm : List Nat) :
    ∃ out, applyPermutation C S dr0 dr1 zero data perm = .ok out := by
  simp only [applyPermutation]
  set k := padExp data.length
  set dat : Nat → M := fun i => (data ++ List.replicate (2 ^ k - data.length) zero).getD i zero
  set cur := destOf (2 ^ k) fun i => (perm ++ List.range' data.length (2 ^ k - data.length)).getD i 0
  have : ∃ o, runNetwork C S dr0 dr1 zero (2 ^ k) (genControls (2 ^ k) (schedule k) cur) dat (schedule k) = .ok o := by
    cases hs : schedule k with
    | nil => exact ⟨dat, rfl⟩
    | cons e rest =>
      obtain ⟨s, d⟩ := e
      have hlen : (stepCtrl (2 ^ k) s d cur).length = (lowIx (2 ^ k) d).length := by simp [stepCtrl]
      have hsl := slice_mid [] (stepCtrl (2 ^ k) s d cur)
        (genControls (2 ^ k) rest (localStep (2 ^ k) d (stepCtrl (2 ^ k) s d cur) cur))
      rw [hlen] at hsl
      simp only [List.nil_append, List.length_nil] at hsl
      simp only [runNetwork, genControls]
      rw [hsl]
      obtain ⟨y0, y1, hy⟩ := secure_switch_total C hC S hS dr0 dr1 h0 h1 (lowIx (2 ^ k) d) dat
        (fun i => dat (i ^^^ d)) (shouldSwap s d cur)
      rw [stepCtrl, hy]
      exact ⟨_, rfl⟩
  obtain ⟨o, ho⟩ := this
  rw [ho]
  exact ⟨_, rfl⟩

/-- Constant draws for the toy curve. -/
def toyOtDraws : OtDraws Nat := ⟨5, fun _ => 3, fun _ => 1, fun _ => 2, fun i => i, fun i => i + 7⟩

/-- A permutation of five elements through the padded network of eight. -/
example : applyPermutation toyCurve toySym toyOtDraws toyOtDraws 0 [10, 20, 30, 40, 50] [4, 2, 0, 1, 3]
    = .ok [50, 30, 10, 20, 40] := by decide +kernel

example : ∃ out, applyPermutation toyCurve toySym toyOtDraws toyOtDraws 0 [10, 20, 30, 40, 50] [4, 2, 0, 1, 3]
    = .ok out ∧ Gathers [10, 20, 30, 40, 50] [4, 2, 0, 1, 3] out := by
  have hd : DrawsOk toyCurve toyOtDraws := fun i => by
    simp only [toyOtDraws]; decide
  obtain ⟨out, h⟩ := apply_permutation_total toyCurve toyCurve_ok toySym toySym_ok toyOtDraws toyOtDraws hd hd
    0 [10, 20, 30, 40, 50] [4, 2, 0, 1, 3]
  exact ⟨out, h, apply_permutation_correct toyCurve toyCurve_ok toySym toySym_ok toyOtDraws toyOtDraws 0 _ _
    (by decide) out h⟩

end Verif.Mpc
