/-
C41: solve / decode; C43: LDPC encoder.
-/
import Verif.Kern.OkvsPeel
import Verif.Store.Props

namespace Verif.Kern

theorem mmXor_comm (a b : Blk) : mmXor a b = mmXor b a := by
  unfold mmXor; rw [Nat.xor_comm a.1, Nat.xor_comm a.2]

theorem mmXor_assoc (a b c : Blk) : mmXor (mmXor a b) c = mmXor a (mmXor b c) := by
  unfold mmXor; simp only [Nat.xor_assoc]

theorem mmXor_self (a : Blk) : mmXor a a = (0, 0) := by
  unfold mmXor; simp only [Nat.xor_self]

theorem mmXor_zero (a : Blk) : mmXor a (0, 0) = a := by
  unfold mmXor; simp only [Nat.xor_zero]

theorem zero_mmXor (a : Blk) : mmXor (0, 0) a = a := by
  rw [mmXor_comm, mmXor_zero]

instance : Std.Associative mmXor := ⟨mmXor_assoc⟩
instance : Std.Commutative mmXor := ⟨mmXor_comm⟩

theorem mmXor_cancel (a b : Blk) : mmXor (mmXor a b) b = a := by
  rw [mmXor_assoc, mmXor_self, mmXor_zero]

theorem getD_set (l : List Blk) (i j : Nat) (v : Blk) (hi : i < l.length) :
    (l.set i v).getD j (0, 0) = if j = i then v else l.getD j (0, 0) := by
  rw [List.getD_eq_getElem?_getD, List.getD_eq_getElem?_getD, List.getElem?_set]
  by_cases h : i = j
  · subst h; simp [hi]
  · have : ¬ j = i := fun e => h e.symm
    simp [h, this]

/-- Writing the column of a row that was zero makes the row sum to the target. -/
theorem cell3_set {out : List Blk} {t : Tri} {c : Nat} {v : Blk} (hn : t.cols.Nodup)
    (hc : c ∈ t.cols) (hl : c < out.length) (hz : out.getD c (0, 0) = (0, 0)) :
    cell3 (out.set c (mmXor v (cell3 out t))) t = v := by
  obtain ⟨a, b, d⟩ := t
  simp only [Tri.cols, List.nodup_cons, List.mem_cons, List.not_mem_nil, or_false, not_or,
    not_false_iff, List.nodup_nil, and_true] at hn hc
  obtain ⟨⟨hab, had⟩, hbd⟩ := hn
  unfold cell3
  simp only [getD_set _ _ _ _ hl]
  rcases hc with rfl | rfl | rfl
  · have h1 : ¬ b = c := fun e => hab e.symm
    have h2 : ¬ d = c := fun e => had e.symm
    simp only [if_true, if_neg h1, if_neg h2, hz, zero_mmXor]
    rw [mmXor_assoc, mmXor_cancel]
  · have h2 : ¬ d = c := fun e => hbd e.symm
    simp only [if_true, if_neg hab, if_neg h2, hz, mmXor_zero]
    generalize out.getD a (0, 0) = x
    generalize out.getD d (0, 0) = y
    rw [mmXor_comm x, mmXor_assoc, mmXor_cancel]
  · simp only [if_true, if_neg had, if_neg hbd, hz, mmXor_zero]
    rw [mmXor_comm, mmXor_cancel]

theorem cell3_congr {o o' : List Blk} {t : Tri}
    (h : ∀ c ∈ t.cols, o.getD c (0, 0) = o'.getD c (0, 0)) : cell3 o t = cell3 o' t := by
  unfold cell3
  rw [h t.1 (by simp [Tri.cols]), h t.2.1 (by simp [Tri.cols]), h t.2.2 (by simp [Tri.cols])]

theorem backSub_spec (rows : List Tri) (values : List Blk) (m : Nat) (hg : GoodRows rows m)
    (hv : rows.length ≤ values.length) :
    ∀ (L : List (Nat × Nat)) (out : List Blk), out.length = m →
      L.Pairwise (fun q p => p.1 ∉ rowCols rows q.2) →
      (∀ p ∈ L, p.1 ∈ rowCols rows p.2 ∧ p.2 < rows.length) →
      (∀ p ∈ L, out.getD p.1 (0, 0) = (0, 0)) →
      ∃ out', backSub rows values L out = .ok out' ∧ out'.length = m ∧
        (∀ p ∈ L, some (cell3 out' (rows.getD p.2 (0, 0, 0))) = values[p.2]?) ∧
        (∀ k, (∀ p ∈ L, p.1 ≠ k) → out'.getD k (0, 0) = out.getD k (0, 0)) := by
  intro L
  induction L with
  | nil => intro out hl _ _ _; exact ⟨out, rfl, hl, by simp, by simp⟩
  | cons p L ih =>
    obtain ⟨c, r⟩ := p
    intro out hl hpw hown hz
    rw [List.pairwise_cons] at hpw
    obtain ⟨hcr, hrn⟩ := hown (c, r) (by simp)
    simp only at hcr hrn
    have hgr := hg _ (getD_mem hrn)
    have hcm : c < m := hgr.2 c hcr
    have hvr : r < values.length := by omega
    have hne : ∀ q ∈ L, q.1 ≠ c := by
      intro q hq e
      exact hpw.1 q hq (e ▸ hcr)
    obtain ⟨out', h1, h2, h3, h4⟩ := ih
      (out.set c (mmXor values[r] (cell3 out (rows.getD r (0, 0, 0)))))
      (by simpa using hl) hpw.2 (fun q hq => hown q (by simp [hq]))
      (by
        intro q hq
        rw [getD_set _ _ _ _ (by omega), if_neg (hne q hq)]
        exact hz q (by simp [hq]))
    refine ⟨out', ?_, h2, ?_, ?_⟩
    · rw [backSub, List.getElem?_eq_getElem hvr]
      exact h1
    · intro q hq
      rw [List.mem_cons] at hq
      rcases hq with rfl | hq
      · simp only
        rw [List.getElem?_eq_getElem hvr]
        congr 1
        rw [cell3_congr (o' := out.set c (mmXor values[r] (cell3 out (rows.getD r (0, 0, 0)))))]
        · exact cell3_set hgr.1 hcr (by omega) (hz (c, r) (by simp))
        · intro k hk
          apply h4
          intro q hq e
          exact hpw.1 q hq (e ▸ hk)
      · exact h3 q hq
    · intro k hk
      rw [h4 k (fun q hq => hk q (by simp [hq])), getD_set _ _ _ _ (by omega), if_neg]
      intro e
      exact hk (c, r) (by simp) e.symm

/-! ### C41 -/

/-- The three cells of each key, as the specification sees them. -/
def keyRows (words : Nat → Nat × Nat) (keys : List Nat) (m : Nat) : List Tri :=
  keys.map (fun k => indices m (words k))

theorem goodRows_keys (words : Nat → Nat × Nat) (keys : List Nat) (m : Nat) (hm : 3 ≤ m) :
    GoodRows (keyRows words keys m) m := by
  intro t ht
  unfold keyRows at ht
  rw [List.mem_map] at ht
  obtain ⟨k, _, rfl⟩ := ht
  exact indices_distinct m hm (words k)

theorem okvsSolve_eq (words : Nat → Nat × Nat) (keys : List Nat) (values : List Blk) (m : Nat)
    (hm : 3 ≤ m) : okvsSolve words keys values m
      = match peelAll (keyRows words keys m) m with
        | .error e => .error e
        | .ok stack => backSub (keyRows words keys m) values stack.reverse
            (List.replicate m (0, 0)) := by
  unfold okvsSolve keyRows
  rw [if_neg (by omega)]
  rfl

theorem solve_peelable (words : Nat → Nat × Nat) (keys : List Nat) (values : List Blk) (m : Nat)
    (hm : 3 ≤ m) (hv : keys.length ≤ values.length)
    (hp : Peelable Tri.cols (keyRows words keys m)) :
    ∃ st, okvsSolve words keys values m = .ok st ∧ st.length = m ∧
      okvsDecode words keys st m = values.take keys.length := by
  have hg := goodRows_keys words keys m hm
  obtain ⟨stack, hs, hgs⟩ := (peelAll_spec _ m hg).1 hp
  have hlen : (keyRows words keys m).length = keys.length := by simp [keyRows]
  obtain ⟨out, ho, hol, hov, _⟩ := backSub_spec (keyRows words keys m) values m hg (by omega)
    stack.reverse (List.replicate m (0, 0)) (by simp)
    (by rw [List.pairwise_reverse]; exact hgs.pw)
    (by intro p hp; exact hgs.own p (by simpa using hp))
    (by
      intro p _
      rw [List.getD_eq_getElem?_getD, List.getElem?_replicate]
      split <;> rfl)
  refine ⟨out, by rw [okvsSolve_eq _ _ _ _ hm, hs]; exact ho, hol, ?_⟩
  unfold okvsDecode
  apply List.ext_getElem?
  intro i
  rw [List.getElem?_map]
  by_cases hi : i < keys.length
  · obtain ⟨j, hj⟩ := hgs.all i (by omega)
    have := hov (j, i) (by simpa using hj)
    simp only at this
    rw [List.getElem?_eq_getElem hi, List.getElem?_take, if_pos hi, ← this]
    simp [keyRows, List.getD_eq_getElem?_getD, List.getElem?_eq_getElem hi]
  · rw [List.getElem?_eq_none (by omega), List.getElem?_eq_none (by simp; omega)]; rfl

theorem solve_not_peelable (words : Nat → Nat × Nat) (keys : List Nat) (values : List Blk)
    (m : Nat) (hm : 3 ≤ m) (hp : ¬ Peelable Tri.cols (keyRows words keys m)) :
    okvsSolve words keys values m = .error .core := by
  rw [okvsSolve_eq _ _ _ _ hm, (peelAll_spec _ m (goodRows_keys words keys m hm)).2 hp]

/-- **C41**: whenever the solver returns a table, the table has `m` cells and decoding it at
every key gives that key's value. -/
theorem okvs_decodes_every_key (words : Nat → Nat × Nat) (keys : List Nat) (values : List Blk)
    (m : Nat) (hm : 3 ≤ m) (hv : values.length = keys.length) (st : List Blk)
    (h : okvsSolve words keys values m = .ok st) :
    st.length = m ∧ okvsDecode words keys st m = values := by
  by_cases hp : Peelable Tri.cols (keyRows words keys m)
  · obtain ⟨st', h1, h2, h3⟩ := solve_peelable words keys values m hm (by omega) hp
    rw [h] at h1
    cases h1
    rw [← hv, List.take_length] at h3
    exact ⟨h2, h3⟩
  · rw [solve_not_peelable words keys values m hm hp] at h
    cases h

/-- **C41**: the solver returns a table exactly when the rows of the keys can be peeled, and
otherwise raises "OKVS core detected". -/
theorem okvs_solves_iff_peelable (words : Nat → Nat × Nat) (keys : List Nat) (values : List Blk)
    (m : Nat) (hm : 3 ≤ m) (hv : values.length = keys.length) :
    ((∃ st, okvsSolve words keys values m = .ok st) ↔ Peelable Tri.cols (keyRows words keys m)) ∧
    ((∃ st, okvsSolve words keys values m = .ok st) ∨
      okvsSolve words keys values m = .error .core) := by
  by_cases hp : Peelable Tri.cols (keyRows words keys m)
  · obtain ⟨st', h1, _, _⟩ := solve_peelable words keys values m hm (by omega) hp
    exact ⟨⟨fun _ => hp, fun _ => ⟨st', h1⟩⟩, Or.inl ⟨st', h1⟩⟩
  · have h1 := solve_not_peelable words keys values m hm hp
    refine ⟨⟨?_, fun h => absurd h hp⟩, Or.inr h1⟩
    rintro ⟨st, h⟩
    rw [h1] at h; cases h

theorem peelable_dup {α : Type} {cols : α → List Nat} {l : List α} (h : Peelable cols l) :
    ∀ a b : α, cols a = cols b → [a, b].Sublist l → False := by
  intro a b hab hs
  have := h.sublist hs
  generalize hl : [a, b] = l' at this
  cases this with
  | nil => cases hl
  | step pre post t c hc hu _ =>
    match pre, hl with
    | [], hl =>
      simp only [List.nil_append, List.cons.injEq] at hl
      obtain ⟨rfl, rfl⟩ := hl
      exact hu b (by simp) (hab ▸ hc)
    | [x], hl =>
      simp only [List.cons_append, List.nil_append, List.cons.injEq] at hl
      obtain ⟨rfl, rfl, rfl⟩ := hl
      exact hu a (by simp) (hab ▸ hc)
    | x :: y :: pre, hl => simp at hl

/-- **C41**: a key given twice is always rejected, whatever the values. -/
theorem okvs_rejects_duplicate_keys (words : Nat → Nat × Nat) (keys : List Nat)
    (values : List Blk) (m : Nat) (hm : 3 ≤ m) (hd : ¬ keys.Nodup) :
    okvsSolve words keys values m = .error .core := by
  apply solve_not_peelable words keys values m hm
  intro hp
  have : ∃ k, [k, k].Sublist keys := by
    by_contra hno
    exact hd (List.nodup_iff_sublist.2 fun a ha => hno ⟨a, ha⟩)
  obtain ⟨k, hk⟩ := this
  have hs := hk.map (fun k => indices m (words k))
  exact peelable_dup hp _ _ rfl hs

/-- Cell-wise xor of two tables. -/
def xorTables (a b : List Blk) : List Blk := List.zipWith mmXor a b

theorem getD_xorTables {a b : List Blk} (h : a.length = b.length) (i : Nat) :
    (xorTables a b).getD i (0, 0) = mmXor (a.getD i (0, 0)) (b.getD i (0, 0)) := by
  unfold xorTables
  rw [List.getD_eq_getElem?_getD, List.getD_eq_getElem?_getD, List.getD_eq_getElem?_getD,
    List.getElem?_zipWith]
  by_cases hi : i < a.length
  · rw [List.getElem?_eq_getElem hi, List.getElem?_eq_getElem (h ▸ hi)]; rfl
  · rw [List.getElem?_eq_none (by omega), List.getElem?_eq_none (by omega)]; rfl

/-- **C41**: decoding is linear: decoding the xor of two tables gives the xor of the decodings. -/
theorem okvs_decode_linear (words : Nat → Nat × Nat) (keys : List Nat) (a b : List Blk) (m : Nat)
    (h : a.length = b.length) :
    okvsDecode words keys (xorTables a b) m
      = List.zipWith mmXor (okvsDecode words keys a m) (okvsDecode words keys b m) := by
  unfold okvsDecode
  induction keys with
  | nil => rfl
  | cons k ks ih =>
    simp only [List.map_cons, List.zipWith_cons_cons]
    rw [ih]
    congr 1
    unfold cell3
    simp only [getD_xorTables h]
    ac_rfl

/-- The table computed for the example below. -/
def exampleTable : List Blk := [(1, 2), (0, 0), (0, 0), (5, 6), (0, 0), (0, 0), (3, 4)]

/-- A concrete table: three keys, Python hash, seven cells. -/
example : ∃ st, okvsSolve (pyWords 0xDEADBEEF 0xCAFEBABE) [10, 20, 30] [(1, 2), (3, 4), (5, 6)] 7
      = .ok st ∧ okvsDecode (pyWords 0xDEADBEEF 0xCAFEBABE) [10, 20, 30] st 7
      = [(1, 2), (3, 4), (5, 6)] := by
  have h : ∃ st, okvsSolve (pyWords 0xDEADBEEF 0xCAFEBABE) [10, 20, 30]
      [(1, 2), (3, 4), (5, 6)] 7 = .ok st := ⟨exampleTable, by decide +kernel⟩
  obtain ⟨st, hst⟩ := h
  exact ⟨st, hst, (okvs_decodes_every_key _ _ _ _ (by decide) rfl st hst).2⟩

/-- **C41, violated by the native kernel**: when the rows cannot be peeled the native solver
reports success and returns an all-zero table, which decodes to zero at every key. -/
theorem okvs_native_violated :
    ∃ (words : Nat → Nat × Nat) (keys : List Nat) (values st : List Blk), keys.Nodup ∧
      values.length = keys.length ∧ okvsSolveNative words keys values 3 = .ok st ∧
      okvsSolve words keys values 3 = .error .core ∧ okvsDecode words keys st 3 ≠ values := by
  refine ⟨fun k => (k, k), [1, 4], [(1, 0), (2, 0)], [(0, 0), (0, 0), (0, 0)], by decide, rfl,
    by decide +kernel, by decide +kernel, by decide +kernel⟩

/-- **C41, the part the native kernel satisfies**: for keys whose rows can be peeled the table
decodes every key. -/
theorem okvs_native_partial (words : Nat → Nat × Nat) (keys : List Nat) (values : List Blk)
    (m : Nat) (hm : 3 ≤ m) (hv : values.length = keys.length)
    (hp : Peelable Tri.cols (keyRows words keys m)) :
    ∃ st, okvsSolveNative words keys values m = .ok st ∧ okvsDecode words keys st m = values := by
  obtain ⟨st, h1, _, h3⟩ := solve_peelable words keys values m hm (by omega) hp
  refine ⟨st, ?_, ?_⟩
  · unfold okvsSolveNative; rw [h1]
  · rw [h3, ← hv, List.take_length]

/-! ### C43 -/

/-- xor of a list of blocks. -/
def xorAll (l : List Blk) : Blk := l.foldr mmXor (0, 0)

theorem ldpcRow_spec (msg : List Blk) : ∀ (cols : List Nat) (acc : Blk),
    (∀ c ∈ cols, c < msg.length) →
    ldpcRow msg cols acc = some (mmXor acc (xorAll (cols.map (fun c => msg.getD c (0, 0)))))
  | [], acc, _ => by simp [ldpcRow, xorAll, mmXor_zero]
  | c :: cols, acc, h => by
    have hc := h c (by simp)
    rw [ldpcRow, List.getElem?_eq_getElem hc]
    simp only
    rw [ldpcRow_spec msg cols _ (fun d hd => h d (by simp [hd]))]
    have e : msg.getD c (0, 0) = msg[c] := by
      rw [List.getD_eq_getElem?_getD, List.getElem?_eq_getElem hc]; rfl
    simp only [List.map_cons, xorAll, List.foldr_cons, e, mmXor_assoc]

theorem csrRow_spec (indices indptr : List Nat) (i : Nat) (hi : i + 1 < indptr.length) :
    csrRow indices indptr i = some ((indices.take (indptr.getD (i + 1) 0)).drop (indptr.getD i 0)) := by
  unfold csrRow
  rw [List.getElem?_eq_getElem hi, List.getElem?_eq_getElem (by omega)]
  simp only
  rw [List.getD_eq_getElem?_getD, List.getD_eq_getElem?_getD, List.getElem?_eq_getElem hi,
    List.getElem?_eq_getElem (by omega)]
  rfl

theorem encode_aux (msg : List Blk) (idx ptr : List Nat) :
    ∀ (k i : Nat), i + k < ptr.length → (∀ c ∈ idx, c < msg.length) →
    ∃ out, ldpcEncode msg idx ptr i k = some out ∧ out.length = k ∧
      ∀ (r : Nat), r < k → out[r]? = some (xorAll
        (((idx.take (ptr.getD (i + r + 1) 0)).drop (ptr.getD (i + r) 0)).map
          (fun c => msg.getD c (0, 0)))) := by
  intro k
  induction k with
  | zero => intro i _ _; exact ⟨[], rfl, rfl, by intro r hr; omega⟩
  | succ k ih =>
    intro i hi hc
    obtain ⟨out, h1, h2, h3⟩ := ih (i + 1) (by omega) hc
    have hrow := ldpcRow_spec msg ((idx.take (ptr.getD (i + 1) 0)).drop (ptr.getD i 0)) (0, 0)
      (fun c hcm => hc c (List.mem_of_mem_take (List.mem_of_mem_drop hcm)))
    rw [zero_mmXor] at hrow
    refine ⟨xorAll (((idx.take (ptr.getD (i + 1) 0)).drop (ptr.getD i 0)).map
      (fun c => msg.getD c (0, 0))) :: out, ?_, by simp [h2], ?_⟩
    · rw [ldpcEncode, csrRow_spec idx ptr i (by omega)]
      simp only
      rw [hrow, h1]
    · intro r hr
      cases r with
      | zero => rfl
      | succ r =>
        rw [List.getElem?_cons_succ, h3 r (by omega)]
        have e1 : i + 1 + r + 1 = i + (r + 1) + 1 := by omega
        have e2 : i + 1 + r = i + (r + 1) := by omega
        rw [e1, e2]

/-- **C43**: with a well-formed CSR matrix (row pointers for `m` rows, indices inside the
message) entry `r` of the syndrome is the xor of the message blocks at the column indices of
row `r`. -/
theorem ldpc_encode_rows (msg : List Blk) (idx ptr : List Nat) (m : Nat) (hp : m < ptr.length)
    (hc : ∀ c ∈ idx, c < msg.length) :
    ∃ out, ldpcEncode msg idx ptr 0 m = some out ∧ out.length = m ∧
      ∀ (r : Nat), r < m → out[r]? = some (xorAll
        (((idx.take (ptr.getD (r + 1) 0)).drop (ptr.getD r 0)).map
          (fun c => msg.getD c (0, 0)))) := by
  obtain ⟨out, h1, h2, h3⟩ := encode_aux msg idx ptr m 0 (by omega) hc
  refine ⟨out, h1, h2, ?_⟩
  intro r hr
  have := h3 r hr
  simpa using this

theorem xorAll_zip (f g : Nat → Blk) (l : List Nat) :
    xorAll (l.map (fun c => mmXor (f c) (g c))) = mmXor (xorAll (l.map f)) (xorAll (l.map g)) := by
  induction l with
  | nil => simp [xorAll, mmXor_zero]
  | cons c l ih =>
    simp only [List.map_cons, xorAll, List.foldr_cons] at ih ⊢
    rw [ih]; ac_rfl

/-- **C43**: encoding is linear: the syndrome of the xor of two messages is the xor of their
syndromes. -/
theorem ldpc_encode_linear (a b : List Blk) (idx ptr : List Nat) (m : Nat) (hp : m < ptr.length)
    (hab : a.length = b.length) (hc : ∀ c ∈ idx, c < a.length) :
    ∃ sa sb, ldpcEncode a idx ptr 0 m = some sa ∧ ldpcEncode b idx ptr 0 m = some sb ∧
      ldpcEncode (xorTables a b) idx ptr 0 m = some (xorTables sa sb) := by
  obtain ⟨sa, ha1, ha2, ha3⟩ := ldpc_encode_rows a idx ptr m hp hc
  obtain ⟨sb, hb1, hb2, hb3⟩ := ldpc_encode_rows b idx ptr m hp (by rw [← hab]; exact hc)
  obtain ⟨sc, hc1, hc2, hc3⟩ := ldpc_encode_rows (xorTables a b) idx ptr m hp
    (by intro c h; have := hc c h; simp [xorTables]; omega)
  refine ⟨sa, sb, ha1, hb1, ?_⟩
  rw [hc1]
  congr 1
  apply List.ext_getElem?
  intro i
  by_cases hi : i < m
  · rw [hc3 i hi]
    unfold xorTables
    rw [List.getElem?_zipWith, ha3 i hi, hb3 i hi]
    simp only
    congr 1
    rw [← xorAll_zip]
    congr 2
    funext c
    exact getD_xorTables hab c
  · rw [List.getElem?_eq_none (by omega), List.getElem?_eq_none]
    simp [xorTables]; omega

example : ldpcEncode [(1, 0), (2, 0), (4, 0)] [0, 1, 1, 2] [0, 2, 4] 0 2
    = some [(3, 0), (6, 0)] := by decide

end Verif.Kern
