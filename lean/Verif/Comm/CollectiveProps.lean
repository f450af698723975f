import Verif.Comm.Collective
/-!
# C23 (point-to-point), C25 (collectives): property theorems over all schedules
-/
namespace Verif.Comm
section
variable {V A L M : Type}

/-! ## C23 -/

/-- **C23** All parties run the same script of directed transfers, each its own part of it.  For every schedule (sends,
receives and deliveries in any order, messages may overtake): every schedule can be continued, all have the same bounded
length, and the final state is the one obtained by performing the transfers one by one in script order — the receive
matching a transfer gets exactly the message of that transfer. -/
theorem p2p_matches (N : Nat) (xs : List (Xfer M L)) (hv : ValidScript N xs) (σ : Nat → L) (c : Nat → Nat → Nat) (hc : Symm c) :
    ∃ c', Symm c' ∧ Always N (syncSt (fun p => proj p xs (σ p)) c) (syncSt (fun p => .ret (runScript xs σ p)) c') := by
  obtain ⟨c', h1, h2⟩ := script_reach (A := L) (N := N) xs hv σ (fun _ l => .ret l) c hc
  refine ⟨c', h1, always_of_reach (wf_sync _ _) ?_ (terminal_sync _ _ (fun p _ => .inl ⟨_, rfl⟩))⟩
  have bind_ret : ∀ x : Proc M L, x.bind (fun l => .ret l) = x := by
    intro x
    induction x with
    | ret a => rfl
    | send t m k ih => simp [Proc.bind, ih]
    | recv t k ih => simp [Proc.bind, ih]
    | fail => rfl
  simpa only [bind_ret] using h2

/-- **C23** No schedule ever overwrites an occupied mailbox slot (which would make the sender raise): no party fails at any
point of any schedule. -/
theorem p2p_no_overflow (N : Nat) (xs : List (Xfer M L)) (hv : ValidScript N xs) (σ : Nat → L) (c : Nat → Nat → Nat) (hc : Symm c)
    (ms : List Label) (u : Net M L) (hu : exec (step N) (syncSt (fun p => proj p xs (σ p)) c) ms = some u) (p : Nat) :
    u.proc p ≠ .fail := by
  obtain ⟨c', _, h⟩ := p2p_matches N xs hv σ c hc
  exact never_fails h p (runScript xs σ p) rfl ms u hu

/-- **C23** (keys) A message in transit always has a number its sender has already used and will not use again, so no two
messages ever share (receiver, sender, key). -/
theorem p2p_fresh_keys (N : Nat) (s : Net M L) (hwf : WF s) (ms : List Label) (u : Net M L) (hu : exec (step N) s ms = some u)
    (dst frm n : Nat) (h : u.slot (dst, frm, n) ≠ .empty) : n < u.seq frm dst := by
  have : WF u := by
    clear h
    induction ms generalizing s with
    | nil => simp only [exec, Option.some.injEq] at hu; subst hu; exact hwf
    | cons l ms ih =>
      simp only [exec] at hu
      cases hs : step N s l with
      | none => simp [hs] at hu
      | some s' => simp only [hs] at hu; exact ih s' (wf_step N s l s' hwf hs) hu
  exact this dst frm n h

/-! Non-vacuity: a ring of three parties passing values around twice. -/
example : ValidScript 3 ([⟨0, 1, id, fun m _ => m⟩, ⟨1, 2, id, fun m l => m + l⟩, ⟨2, 0, id, fun m _ => m⟩] : List (Xfer Nat Nat)) := by
  intro x hx
  simp only [List.mem_cons, List.not_mem_nil, or_false] at hx
  rcases hx with rfl | rfl | rfl <;> simp
example : (List.range 3).map (runScript ([⟨0, 1, id, fun m _ => m⟩, ⟨1, 2, id, fun m l => m + l⟩, ⟨2, 0, id, fun m _ => m⟩]) (fun p => p + 5)) =
    [12, 5, 12] := by decide

/-! ## C25 -/

/-- a list of participants that passes the range checks -/
def ValidParts (N : Nat) (ps : List Int) : Prop := ps ≠ [] ∧ ∀ r ∈ ps, 0 ≤ r ∧ r < (N : Int)

/-- the coordinating rank `ps[0]` after normalisation -/
def rootOf (ps : List Int) : Nat := (ranks ps).headD 0

theorem ranks_valid {N : Nat} {ps : List Int} (h : ValidParts N ps) : ∀ r ∈ ranks ps, r < N := by
  intro r hr
  have := (h.2 r ((mem_ranks ps (fun r hr => (h.2 r hr).1) r).mp hr)).2
  omega

theorem ranks_ne_nil {N : Nat} {ps : List Int} (h : ValidParts N ps) : ranks ps ≠ [] := by
  intro he
  obtain ⟨r, hr⟩ := List.exists_mem_of_ne_nil ps h.1
  have h0 := (h.2 r hr).1
  have : r.toNat ∈ ranks ps := (mem_ranks ps (fun r hr => (h.2 r hr).1) _).mpr (by rwa [Int.toNat_of_nonneg h0])
  rw [he] at this
  simp at this

theorem ranks_cons {N : Nat} {ps : List Int} (h : ValidParts N ps) : ranks ps = rootOf ps :: others (rootOf ps) (ranks ps) := by
  have hne := ranks_ne_nil h
  have hnd : (ranks ps).Nodup := sortedSet_nodup _
  simp only [rootOf]
  generalize ranks ps = l at *
  cases l with
  | nil => exact absurd rfl hne
  | cons a l =>
    simp only [List.headD_cons, others]
    rw [List.nodup_cons] at hnd
    rw [List.filter_cons_of_neg (by simp)]
    congr 1
    rw [List.filter_eq_self.mpr]
    intro b hb
    have : b ≠ a := fun he => hnd.1 (he ▸ hb)
    simp [this]

theorem normalize_ok {N : Nat} {ps : List Int} (h : ValidParts N ps) {rank : Nat} (hr : rank ∈ ranks ps) :
    normalize N rank ps = some (ranks ps) := by
  rw [normalize_eq, if_pos ⟨h.1, h.2, (mem_ranks ps (fun r hr => (h.2 r hr).1) rank).mp hr⟩]

/-- the part of the state a collective changes: participants go on with their result -/
def after (P : Nat → Proc M A) (ps : List Int) (f : Nat → Proc M A) : Nat → Proc M A := fun p => if p ∈ ranks ps then f p else P p

theorem root_mem {N : Nat} {ps : List Int} (h : ValidParts N ps) : rootOf ps ∈ ranks ps := by
  rw [ranks_cons h]; simp

theorem mem_others (ps : List Int) (q : Nat) (r : Nat) : r ∈ others q (ranks ps) ↔ r ∈ ranks ps ∧ r ≠ q := by
  simp [others]

theorem barrier_reach {N : Nat} (ps : List Int) (h : ValidParts N ps) (k : Nat → Unit → Proc (Msg V) A) (P : Nat → Proc (Msg V) A)
    (c : Nat → Nat → Nat) (hc : Symm c) (hP : ∀ p ∈ ranks ps, P p = (barrier N p ps).bind (k p)) :
    ∃ c', Symm c' ∧ Reach N (syncSt P c) (syncSt (after P ps (fun p => k p ())) c') := by
  have hroot := root_mem h
  obtain ⟨c', hc', hr⟩ := gather_scatter (N := N) (rootOf ps) (ranks_valid h _ hroot) (others (rootOf ps) (ranks ps))
    ((sortedSet_nodup _).filter _) (fun r hr => ⟨ranks_valid h r ((mem_others ps _ r).mp hr).1, ((mem_others ps _ r).mp hr).2⟩)
    (fun _ _ u => u) () (fun _ => Msg.bool true) (fun _ => Msg.bool true) (fun u => k (rootOf ps) u) (fun r _ => k r ()) P c hc
    (by
      rw [hP _ hroot, barrier, normalize_ok h hroot]
      simp only [rootOf, ne_eq, not_true_eq_false, if_false, bind_assoc, sendEach_bind]
      rfl)
    (fun r hr => by
      obtain ⟨hr1, hr2⟩ := (mem_others ps _ r).mp hr
      rw [hP r hr1, barrier, normalize_ok h hr1]
      simp only [rootOf] at hr2
      simp only [ne_eq, hr2, not_false_eq_true, if_true, rootOf]
      rfl)
  refine ⟨c', hc', ?_⟩
  convert hr using 2
  funext p
  simp only [after, mem_others]
  by_cases h1 : p = rootOf ps
  · subst h1; simp [hroot]
  · simp [h1]

theorem broadcast_reach {N : Nat} (ps : List Int) (h : ValidParts N ps) (root : Nat) (hroot : root ∈ ranks ps) (value : Nat → Msg V)
    (k : Nat → Msg V → Proc (Msg V) A) (P : Nat → Proc (Msg V) A)
    (c : Nat → Nat → Nat) (hc : Symm c) (hP : ∀ p ∈ ranks ps, P p = (broadcast N p (value p) root ps).bind (k p)) :
    ∃ c', Symm c' ∧ Reach N (syncSt P c) (syncSt (after P ps (fun p => k p (value root))) c') := by
  obtain ⟨c', hc', hr⟩ := scatter_reach (N := N) root (ranks_valid h _ hroot) (others root (ranks ps))
    ((sortedSet_nodup _).filter _) (fun r hr => ⟨ranks_valid h r ((mem_others ps _ r).mp hr).1, ((mem_others ps _ r).mp hr).2⟩)
    (value root) (k root (value root)) k P c hc
    (by
      rw [hP _ hroot, broadcast, normalize_ok h hroot]
      simp only [hroot, not_true_eq_false, if_false, if_true, sendEach_bind]
      rfl)
    (fun r hr => by
      obtain ⟨hr1, hr2⟩ := (mem_others ps _ r).mp hr
      rw [hP r hr1, broadcast, normalize_ok h hr1]
      simp only [hroot, not_true_eq_false, if_false, hr2]
      rfl)
  refine ⟨c', hc', ?_⟩
  convert hr using 2
  funext p
  simp only [after, mem_others]
  by_cases h1 : p = root
  · subst h1; simp [hroot]
  · simp [h1]

theorem lookup_foldl (value : Nat → Msg V) (rs : List Nat) (d : List (Nat × Msg V)) (hd : ∀ e ∈ d, e.2 = value e.1) (r : Nat)
    (h : r ∈ rs ∨ ∃ v, (r, v) ∈ d) : lookup r (rs.foldl (fun d r => (r, value r) :: d) d) = some (value r) := by
  induction rs generalizing d with
  | nil =>
    simp only [List.not_mem_nil, false_or] at h
    obtain ⟨v, hv⟩ := h
    simp only [List.foldl_nil]
    induction d with
    | nil => simp at hv
    | cons e d ih =>
      obtain ⟨e1, e2⟩ := e
      simp only [lookup]
      split
      · rename_i he
        have := hd (e1, e2) (by simp)
        simp only at this
        rw [this, he]
      · rename_i he
        refine ih (fun e he => hd e (by simp [he])) ?_
        rcases List.mem_cons.mp hv with h1 | h1
        · simp only [Prod.mk.injEq] at h1; exact absurd h1.1.symm he
        · exact h1
  | cons a rs ih =>
    simp only [List.foldl_cons]
    refine ih _ ?_ ?_
    · intro e he
      rcases List.mem_cons.mp he with rfl | he
      · rfl
      · exact hd e he
    · rcases h with h | ⟨v, hv⟩
      · rcases List.mem_cons.mp h with rfl | h
        · exact .inr ⟨_, by simp; left; rfl⟩
        · exact .inl h
      · exact .inr ⟨v, by simp [hv]⟩

theorem collect_all (value : Nat → Msg V) (d : List (Nat × Msg V)) (rs : List Nat) (h : ∀ r ∈ rs, lookup r d = some (value r)) :
    collect d rs = some (rs.map value) := by
  induction rs with
  | nil => rfl
  | cons r rs ih => simp [collect, h r (by simp), ih (fun x hx => h x (by simp [hx]))]

theorem allgather_reach {N : Nat} (ps : List Int) (h : ValidParts N ps) (value : Nat → Msg V)
    (k : Nat → List (Msg V) → Proc (Msg V) A) (P : Nat → Proc (Msg V) A)
    (c : Nat → Nat → Nat) (hc : Symm c) (hP : ∀ p ∈ ranks ps, P p = (allgather N p (value p) ps).bind (k p)) :
    ∃ c', Symm c' ∧ Reach N (syncSt P c) (syncSt (after P ps (fun p => k p ((ranks ps).map value))) c') := by
  have hroot := root_mem h
  have hrs : ∀ r ∈ others (rootOf ps) (ranks ps), r < N ∧ r ≠ rootOf ps :=
    fun r hr => ⟨ranks_valid h r ((mem_others ps _ r).mp hr).1, ((mem_others ps _ r).mp hr).2⟩
  obtain ⟨c1, hc1, r1⟩ := gather_reach (N := N) (rootOf ps) (ranks_valid h _ hroot) (others (rootOf ps) (ranks ps))
    ((sortedSet_nodup _).filter _) hrs (fun r m d => (r, m) :: d) [(rootOf ps, value (rootOf ps))]
    (fun d => match collect d (ranks ps) with
      | none => .fail
      | some g => sendEach (.lst g) (others (rootOf ps) (ranks ps)) (k (rootOf ps) g))
    value (fun r => .recv (rootOf ps) (fun m => (expectList m).bind (k r))) P c hc
    (by
      rw [hP _ hroot, allgather, normalize_ok h hroot]
      simp only [rootOf, ne_eq, not_true_eq_false, if_false, bind_assoc]
      congr 1
      funext d
      cases collect d (ranks ps) with
      | none => rfl
      | some g => simp only [sendEach_bind]; rfl)
    (fun r hr => by
      obtain ⟨hr1, hr2⟩ := (mem_others ps _ r).mp hr
      rw [hP r hr1, allgather, normalize_ok h hr1]
      simp only [rootOf] at hr2
      simp only [ne_eq, hr2, not_false_eq_true, if_true, rootOf]
      rfl)
  have hcol : collect ((others (rootOf ps) (ranks ps)).foldl (fun a r => (r, value r) :: a) [(rootOf ps, value (rootOf ps))]) (ranks ps) =
      some ((ranks ps).map value) := by
    apply collect_all
    intro r hr
    apply lookup_foldl
    · intro e he
      simp only [List.mem_cons, List.not_mem_nil, or_false] at he
      rw [he]
    · by_cases h1 : r = rootOf ps
      · exact .inr ⟨value (rootOf ps), by simp [h1]⟩
      · exact .inl ((mem_others ps _ r).mpr ⟨hr, h1⟩)
  rw [hcol] at r1
  generalize hP1 : (fun p => if p = rootOf ps then
      (match some ((ranks ps).map value) with
        | none => Proc.fail
        | some g => sendEach (.lst g) (others (rootOf ps) (ranks ps)) (k (rootOf ps) g))
      else if p ∈ others (rootOf ps) (ranks ps) then Proc.recv (rootOf ps) (fun m => (expectList m).bind (k p)) else P p) = P1 at r1
  obtain ⟨c2, hc2, r2⟩ := scatter_reach (N := N) (rootOf ps) (ranks_valid h _ hroot) (others (rootOf ps) (ranks ps))
    ((sortedSet_nodup _).filter _) hrs (.lst ((ranks ps).map value)) (k (rootOf ps) ((ranks ps).map value))
    (fun r m => (expectList m).bind (k r)) P1 c1 hc1 (by simp [← hP1]) (fun r hr => by simp [← hP1, (hrs r hr).2, hr])
  refine ⟨c2, hc2, reach_trans r1 ?_⟩
  convert r2 using 2
  funext p
  simp only [after, mem_others, ← hP1]
  by_cases h1 : p = rootOf ps
  · subst h1; simp [hroot]
  · by_cases h2 : p ∈ ranks ps
    · simp [h1, h2, expectList, Proc.bind]
    · simp [h1, h2]

theorem allreduce_reach {N : Nat} (tr : V → Bool) (comb : Bool → Bool → Bool) (ps : List Int) (h : ValidParts N ps) (value : Nat → Bool)
    (k : Nat → Bool → Proc (Msg V) A) (P : Nat → Proc (Msg V) A)
    (c : Nat → Nat → Nat) (hc : Symm c) (hP : ∀ p ∈ ranks ps, P p = (allreduceBool tr comb N p (value p) ps).bind (k p)) :
    ∃ c', Symm c' ∧ Reach N (syncSt P c) (syncSt (after P ps (fun p => k p
      ((others (rootOf ps) (ranks ps)).foldl (fun a r => comb a (value r)) (value (rootOf ps))))) c') := by
  have hroot := root_mem h
  obtain ⟨c', hc', hr⟩ := gather_scatter (N := N) (rootOf ps) (ranks_valid h _ hroot) (others (rootOf ps) (ranks ps))
    ((sortedSet_nodup _).filter _) (fun r hr => ⟨ranks_valid h r ((mem_others ps _ r).mp hr).1, ((mem_others ps _ r).mp hr).2⟩)
    (fun _ m acc => comb acc (m.truth tr)) (value (rootOf ps)) (fun r => Msg.bool (value r)) (fun a => Msg.bool a)
    (fun a => k (rootOf ps) a) (fun r m => k r (m.truth tr)) P c hc
    (by
      rw [hP _ hroot, allreduceBool, normalize_ok h hroot]
      simp only [rootOf, ne_eq, not_true_eq_false, if_false, bind_assoc, sendEach_bind]
      rfl)
    (fun r hr => by
      obtain ⟨hr1, hr2⟩ := (mem_others ps _ r).mp hr
      rw [hP r hr1, allreduceBool, normalize_ok h hr1]
      simp only [rootOf] at hr2
      simp only [ne_eq, hr2, not_false_eq_true, if_true, rootOf]
      rfl)
  refine ⟨c', hc', ?_⟩
  convert hr using 2
  funext p
  simp only [after, mem_others, Msg.truth]
  by_cases h1 : p = rootOf ps
  · subst h1; simp [hroot]
  · simp [h1]

theorem foldl_and (l : List Nat) (v : Nat → Bool) (b : Bool) : l.foldl (fun a r => a && v r) b = (b && l.all v) := by
  induction l generalizing b with
  | nil => simp
  | cons a l ih => simp [ih, Bool.and_assoc]
theorem foldl_or (l : List Nat) (v : Nat → Bool) (b : Bool) : l.foldl (fun a r => a || v r) b = (b || l.any v) := by
  induction l generalizing b with
  | nil => simp
  | cons a l ih => simp [ih, Bool.or_assoc]

theorem and_result {N : Nat} {ps : List Int} (h : ValidParts N ps) (v : Nat → Bool) :
    (others (rootOf ps) (ranks ps)).foldl (fun a r => a && v r) (v (rootOf ps)) = (ranks ps).all v := by
  rw [foldl_and]
  conv_rhs => rw [ranks_cons h]
  simp
theorem or_result {N : Nat} {ps : List Int} (h : ValidParts N ps) (v : Nat → Bool) :
    (others (rootOf ps) (ranks ps)).foldl (fun a r => a || v r) (v (rootOf ps)) = (ranks ps).any v := by
  rw [foldl_or]
  conv_rhs => rw [ranks_cons h]
  simp
theorem xor_result {N : Nat} {ps : List Int} (h : ValidParts N ps) (v : Nat → Bool) :
    (others (rootOf ps) (ranks ps)).foldl (fun a r => a ^^ v r) (v (rootOf ps)) = (ranks ps).foldl (fun a r => a ^^ v r) false := by
  conv_rhs => rw [ranks_cons h]
  simp

/-- run a collective at the participants, nothing (result `d`) at the others -/
def standalone (ps : List Int) (d : A) (f : Nat → Proc M A) : Nat → Proc M A := fun p => if p ∈ ranks ps then f p else .ret d

theorem bind_ret {M A : Type} (x : Proc M A) : x.bind (fun a => .ret a) = x := by
  induction x with
  | ret a => rfl
  | send t m k ih => simp [Proc.bind, ih]
  | recv t k ih => simp [Proc.bind, ih]
  | fail => rfl

theorem after_standalone (ps : List Int) (d : A) (f : Nat → Proc M A) (r : Nat → A) :
    after (standalone ps d f) ps (fun p => .ret (r p)) = fun p => .ret (if p ∈ ranks ps then r p else d) := by
  funext p
  simp only [after, standalone]
  split <;> rfl

/-- **C25** Broadcast: for every participant list, root among them and schedule, every participant ends with the root's value;
every schedule terminates. -/
theorem broadcast_correct (N : Nat) (ps : List Int) (h : ValidParts N ps) (root : Nat) (hroot : root ∈ ranks ps)
    (value : Nat → Msg V) (d : Msg V) (c : Nat → Nat → Nat) (hc : Symm c) :
    ∃ c', Symm c' ∧ Always N (syncSt (standalone ps d (fun p => broadcast N p (value p) root ps)) c)
      (syncSt (fun p => .ret (if p ∈ ranks ps then value root else d)) c') := by
  obtain ⟨c', h1, h2⟩ := broadcast_reach (N := N) ps h root hroot value (fun _ a => .ret a)
    (standalone ps d (fun p => broadcast N p (value p) root ps)) c hc (fun p hp => by simp [standalone, hp, bind_ret])
  rw [after_standalone] at h2
  exact ⟨c', h1, always_of_reach (wf_sync _ _) h2 (terminal_sync _ _ (fun p _ => .inl ⟨_, rfl⟩))⟩

/-- **C25** All-gather: every participant ends with the list of all participants' values in the order of party numbers. -/
theorem allgather_correct (N : Nat) (ps : List Int) (h : ValidParts N ps) (value : Nat → Msg V) (d : List (Msg V))
    (c : Nat → Nat → Nat) (hc : Symm c) :
    ∃ c', Symm c' ∧ Always N (syncSt (standalone ps d (fun p => allgather N p (value p) ps)) c)
      (syncSt (fun p => .ret (if p ∈ ranks ps then (ranks ps).map value else d)) c') := by
  obtain ⟨c', h1, h2⟩ := allgather_reach (N := N) ps h value (fun _ a => .ret a)
    (standalone ps d (fun p => allgather N p (value p) ps)) c hc (fun p hp => by simp [standalone, hp, bind_ret])
  rw [after_standalone] at h2
  exact ⟨c', h1, always_of_reach (wf_sync _ _) h2 (terminal_sync _ _ (fun p _ => .inl ⟨_, rfl⟩))⟩

/-- **C25** Boolean all-reduce with `and`: every participant ends with the conjunction over all participants. -/
theorem allreduce_and_correct (N : Nat) (tr : V → Bool) (ps : List Int) (h : ValidParts N ps) (value : Nat → Bool) (d : Bool)
    (c : Nat → Nat → Nat) (hc : Symm c) :
    ∃ c', Symm c' ∧ Always N (syncSt (standalone ps d (fun p => allreduceBool tr (· && ·) N p (value p) ps)) c)
      (syncSt (fun p => .ret (if p ∈ ranks ps then (ranks ps).all value else d)) c') := by
  obtain ⟨c', h1, h2⟩ := allreduce_reach (N := N) tr (· && ·) ps h value (fun _ a => .ret a)
    (standalone ps d (fun p => allreduceBool tr (· && ·) N p (value p) ps)) c hc (fun p hp => by simp [standalone, hp, bind_ret])
  rw [and_result h, after_standalone] at h2
  exact ⟨c', h1, always_of_reach (wf_sync _ _) h2 (terminal_sync _ _ (fun p _ => .inl ⟨_, rfl⟩))⟩

/-- **C25** with `or`: the disjunction. -/
theorem allreduce_or_correct (N : Nat) (tr : V → Bool) (ps : List Int) (h : ValidParts N ps) (value : Nat → Bool) (d : Bool)
    (c : Nat → Nat → Nat) (hc : Symm c) :
    ∃ c', Symm c' ∧ Always N (syncSt (standalone ps d (fun p => allreduceBool tr (· || ·) N p (value p) ps)) c)
      (syncSt (fun p => .ret (if p ∈ ranks ps then (ranks ps).any value else d)) c') := by
  obtain ⟨c', h1, h2⟩ := allreduce_reach (N := N) tr (· || ·) ps h value (fun _ a => .ret a)
    (standalone ps d (fun p => allreduceBool tr (· || ·) N p (value p) ps)) c hc (fun p hp => by simp [standalone, hp, bind_ret])
  rw [or_result h, after_standalone] at h2
  exact ⟨c', h1, always_of_reach (wf_sync _ _) h2 (terminal_sync _ _ (fun p _ => .inl ⟨_, rfl⟩))⟩

/-- **C25** with `xor`: the parity. -/
theorem allreduce_xor_correct (N : Nat) (tr : V → Bool) (ps : List Int) (h : ValidParts N ps) (value : Nat → Bool) (d : Bool)
    (c : Nat → Nat → Nat) (hc : Symm c) :
    ∃ c', Symm c' ∧ Always N (syncSt (standalone ps d (fun p => allreduceBool tr xor N p (value p) ps)) c)
      (syncSt (fun p => .ret (if p ∈ ranks ps then (ranks ps).foldl (fun a r => a ^^ value r) false else d)) c') := by
  obtain ⟨c', h1, h2⟩ := allreduce_reach (N := N) tr xor ps h value (fun _ a => .ret a)
    (standalone ps d (fun p => allreduceBool tr xor N p (value p) ps)) c hc (fun p hp => by simp [standalone, hp, bind_ret])
  rw [xor_result h, after_standalone] at h2
  exact ⟨c', h1, always_of_reach (wf_sync _ _) h2 (terminal_sync _ _ (fun p _ => .inl ⟨_, rfl⟩))⟩

/-- **C25** Barrier: every schedule terminates with every participant through the barrier. -/
theorem barrier_terminates {V : Type} (N : Nat) (ps : List Int) (h : ValidParts N ps) (c : Nat → Nat → Nat) (hc : Symm c) :
    ∃ c', Symm c' ∧ Always N (syncSt (M := Msg V) (standalone ps () (fun p => barrier N p ps)) c) (syncSt (fun _ => .ret ()) c') := by
  obtain ⟨c', h1, h2⟩ := barrier_reach (V := V) (N := N) ps h (fun _ a => .ret a) (standalone ps () (fun p => barrier N p ps)) c hc
    (fun p hp => by simp [standalone, hp, bind_ret])
  rw [after_standalone ps () _ (fun _ => ())] at h2
  refine ⟨c', h1, always_of_reach (wf_sync _ _) ?_ (terminal_sync _ _ (fun p _ => .inl ⟨_, rfl⟩))⟩
  convert h2 using 3

/-- **C25** (rejection) A collective call fails at once, without communicating, exactly when the participant list is empty,
names a rank outside the world, or does not contain the caller. -/
theorem normalize_rejects (N rank : Nat) (ps : List Int) :
    normalize N rank ps = none ↔ ps = [] ∨ (∃ r ∈ ps, r < 0 ∨ (N : Int) ≤ r) ∨ (rank : Int) ∉ ps := by
  rw [normalize_eq]
  constructor
  · intro h
    by_contra hc
    simp only [not_or, not_exists, not_and, not_not] at hc
    rw [if_pos ⟨hc.1, fun r hr => ⟨by have := (hc.2.1 r hr).1; omega, by have := (hc.2.1 r hr).2; omega⟩, hc.2.2⟩] at h
    cases h
  · rintro (h | ⟨r, hr, h⟩ | h)
    · rw [if_neg (fun h' => h'.1 h)]
    · rw [if_neg (fun h' => by have := h'.2.1 r hr; omega)]
    · rw [if_neg (fun h' => h h'.2.2)]

/-- normalisation sorts and removes duplicates: ascending order, the same ranks -/
theorem normalize_sorted (N rank : Nat) (ps : List Int) (q : List Nat) (h : normalize N rank ps = some q) :
    q.Pairwise (· < ·) ∧ ∀ p : Nat, p ∈ q ↔ (p : Int) ∈ ps := by
  rw [normalize_eq] at h
  split at h
  · rename_i hv
    cases h
    exact ⟨sortedSet_sorted _, mem_ranks ps (fun r hr => (hv.2.1 r hr).1)⟩
  · cases h

/-! Non-vacuity -/
example : ValidParts 4 [3, 1, 3, 0] := by simp [ValidParts]
example : ranks [3, 1, 3, 0] = [0, 1, 3] := by decide

end
end Verif.Comm
