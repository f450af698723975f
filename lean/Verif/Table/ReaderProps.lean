import Verif.Table.Reader
/-! C57: batched reading of one table. -/

namespace Verif.Table

variable {R : Type}

theorem accum_spec (B : Nat) (src : List (List R)) (n : Nat) (acc : List (List R)) (hn : n = acc.flatten.length)
    (hne : ∀ c ∈ acc, c ≠ []) (acc' : List (List R)) (n' : Nat) (rest : List (List R)) (e : Bool)
    (h : accum B src n acc = (acc', n', rest, e)) :
    acc'.flatten ++ rest.flatten = acc.flatten ++ src.flatten ∧ n' = acc'.flatten.length ∧
    (∀ c ∈ acc', c ≠ []) ∧ (e = true → rest = [] ∧ n' < B) ∧ (e = false → B ≤ n') ∧
    (B ≤ n → acc' = acc ∧ rest = src) ∧
    (n < B → B ≤ n' → ∃ init last, acc' = init ++ [last] ∧ init.flatten.length < B) ∧
    acc <+: acc' := by
  induction src generalizing n acc with
  | nil =>
    unfold accum at h
    by_cases hlt : n < B
    · rw [if_pos hlt] at h
      cases h
      refine ⟨by simp, hn, hne, fun _ => ⟨rfl, hlt⟩, by simp, fun _ => ⟨rfl, rfl⟩, ?_, List.prefix_refl _⟩
      intro _ h2; omega
    · rw [if_neg hlt] at h
      cases h
      refine ⟨by simp, hn, hne, by simp, fun _ => by omega, fun _ => ⟨rfl, rfl⟩, ?_, List.prefix_refl _⟩
      intro h2; omega
  | cons c r ih =>
    unfold accum at h
    by_cases hlt : n < B
    · rw [if_pos hlt] at h
      by_cases hc : c.length > 0
      · rw [if_pos hc] at h
        obtain ⟨h1, h2, h3, h4, h5, h6, h7, h8⟩ := ih (n + c.length) (acc ++ [c]) (by simp [hn])
          (by intro x hx; simp at hx; rcases hx with hx | rfl
              · exact hne x hx
              · intro he; simp [he] at hc) h
        refine ⟨by rw [h1]; simp, h2, h3, h4, h5, fun hh => by omega, ?_, ?_⟩
        · intro _ hb
          by_cases hlt2 : n + c.length < B
          · exact h7 hlt2 hb
          · refine ⟨acc, c, (h6 (by omega)).1, by omega⟩
        · exact (List.prefix_append acc [c]).trans h8
      · rw [if_neg hc] at h
        have hc0 : c = [] := by
          cases c with
          | nil => rfl
          | cons => simp at hc
        obtain ⟨h1, h2, h3, h4, h5, h6, h7, h8⟩ := ih (n + c.length) acc (by simp [hn, hc0]) hne h
        refine ⟨by rw [h1, hc0]; simp, h2, h3, h4, h5, fun hh => by omega, ?_, h8⟩
        intro _ hb
        exact h7 (by simp [hc0]; exact hlt) hb
    · rw [if_neg hlt] at h
      cases h
      refine ⟨by simp, hn, hne, by simp, fun _ => by omega, fun _ => ⟨rfl, rfl⟩, fun h2 => by omega, List.prefix_refl _⟩

/-- The rows a reader has not delivered yet: the kept part of a batch, then the source. -/
def pending (s : Rd R) : List R := (s.remain.getD []) ++ s.src.flatten

/-- States a reader with a positive batch size can be in. -/
def Good (s : Rd R) : Prop :=
  0 < s.batchSize ∧ s.remain ≠ some [] ∧ (s.eof = true → pending s = [])

/-- Chunk boundaries fall on batch boundaries: every chunk but the last non-empty one is a multiple of the size. -/
def Aligned (B : Nat) : List (List R) → Prop
  | [] => True
  | c :: r => (B ∣ c.length ∨ r.flatten = []) ∧ Aligned B r

/-- Chunks still to deliver. -/
def chunksOf (s : Rd R) : List (List R) := s.remain.toList ++ s.src

theorem accum_aligned (B : Nat) (hB : 0 < B) (src : List (List R)) (ha : Aligned B src) (acc' : List (List R))
    (n' : Nat) (rest : List (List R)) (e : Bool) (h : accum B src 0 [] = (acc', n', rest, e)) :
    acc'.length ≤ 1 ∧ Aligned B (acc' ++ rest) := by
  induction src with
  | nil =>
    unfold accum at h
    rw [if_pos hB] at h
    cases h
    simp [Aligned]
  | cons c r ih =>
    unfold accum at h
    rw [if_pos hB] at h
    by_cases hc : c.length > 0
    · rw [if_pos hc] at h
      simp only [Nat.zero_add, List.nil_append] at h
      obtain ⟨h1, h2, h3, h4, h5, h6, h7, h8⟩ := accum_spec B r c.length [c] (by simp) (by
        intro x hx; simp at hx; subst hx; intro he; simp [he] at hc) _ _ _ _ h
      by_cases hcB : B ≤ c.length
      · obtain ⟨e1, e2⟩ := h6 hcB
        subst e1 e2
        exact ⟨by simp, ha⟩
      · have hr : r.flatten = [] := by
          rcases ha.1 with hd | hr
          · have := Nat.le_of_dvd hc hd
            omega
          · exact hr
        have hflat : acc'.flatten ++ rest.flatten = c := by rw [h1, hr]; simp
        obtain ⟨t, ht⟩ := h8
        have ht0 : t.flatten = [] ∧ rest.flatten = [] := by
          rw [← ht] at hflat
          simp at hflat
          constructor
          · simp; exact hflat.1
          · simp; exact hflat.2
        have htn : t = [] := by
          cases t with
          | nil => rfl
          | cons x t =>
            exfalso
            have : x ≠ [] := h3 x (by rw [← ht]; simp)
            have h9 := ht0.1
            simp at h9
            exact this h9.1
        subst htn
        rw [← ht]
        refine ⟨by simp, ?_⟩
        simp only [List.append_nil, List.singleton_append]
        refine ⟨.inr ht0.2, ?_⟩
        have hrest := ht0.2
        clear h h1 h2 h3 h4 h5 h6 h7 ht hflat ht0 ih
        induction rest with
        | nil => trivial
        | cons x xs ih2 =>
          simp at hrest
          exact ⟨.inl (by simp [hrest.1]), ih2 (by simpa using hrest.2)⟩
    · rw [if_neg hc] at h
      have hc0 : c.length = 0 := by omega
      rw [hc0] at h
      exact ih ha.2 h

theorem read_step (s : Rd R) (hg : Good s) (he : s.eof = false) :
    (pending s = [] ∧ ∃ s', readNext s = (.error .stopIteration, s')) ∨
    ∃ b s' dropped, readNext s = (.ok b, s') ∧ b ≠ [] ∧ b.length ≤ s.batchSize.toNat ∧
      pending s = b ++ dropped ++ pending s' ∧ Good s' ∧ s'.batchSize = s.batchSize ∧
      (Aligned s.batchSize.toNat (chunksOf s) →
        dropped = [] ∧ Aligned s.batchSize.toNat (chunksOf s') ∧
        (b.length = s.batchSize.toNat ∨ pending s' = [])) := by
  obtain ⟨hB, hrem, -⟩ := hg
  have hBpos : 0 < s.batchSize.toNat := by omega
  have hBeq : ¬ s.batchSize ≤ 0 := by omega
  generalize hB' : s.batchSize.toNat = B at *
  -- the accumulation
  have hread : readInner s = (let a := accum B s.src (s.remain.getD []).length s.remain.toList
    let batches := a.1
    let n := a.2.1
    let s1 : Rd R := { s with src := a.2.2.1, remain := none, eof := s.eof || a.2.2.2 }
    if n = 0 then (.ok none, s1)
    else
      let p := splitLast B n batches
      let s2 : Rd R := { s1 with remain := p.2 }
      ((combine p.1).map some, s2)) := by
    unfold readInner
    rw [if_neg hBeq, hB']
  have hn0 : (s.remain.getD []).length = s.remain.toList.flatten.length := by
    cases s.remain <;> simp
  rw [hn0] at hread
  have hne0 : ∀ c ∈ s.remain.toList, c ≠ [] := by
    intro c hc h0
    rw [h0] at hc
    cases hr : s.remain with
    | none => rw [hr] at hc; simp at hc
    | some b =>
      rw [hr] at hc
      simp at hc
      rw [hr, ← hc] at hrem
      exact hrem rfl
  obtain ⟨acc', n', rest, e, hacc⟩ : ∃ acc' n' rest e,
      accum B s.src s.remain.toList.flatten.length s.remain.toList = (acc', n', rest, e) := ⟨_, _, _, _, rfl⟩
  obtain ⟨h1, h2, h3, h4, h5, h6, h7, h8⟩ := accum_spec B s.src _ _ rfl hne0 _ _ _ _ hacc
  have hpend : pending s = acc'.flatten ++ rest.flatten := by
    rw [h1]
    unfold pending
    cases s.remain <;> simp
  simp only [hacc] at hread
  by_cases hn : n' = 0
  · left
    rw [if_pos hn] at hread
    have hacc'0 : acc'.flatten = [] := List.length_eq_zero_iff.1 (by omega)
    have hrest : rest = [] := by
      cases e with
      | true => exact (h4 rfl).1
      | false => have := h5 rfl; omega
    refine ⟨by rw [hpend, hacc'0, hrest]; rfl, ?_⟩
    unfold readNext
    simp only [he, hread]
    exact ⟨_, rfl⟩
  · right
    rw [if_neg hn] at hread
    have hacc'ne : acc' ≠ [] := by
      intro h0
      rw [h0] at h2
      simp at h2
      exact hn h2
    -- aligned sources give a single batch
    have hsingle : Aligned B (chunksOf s) → acc'.length = 1 ∧ Aligned B (acc' ++ rest) := by
      intro ha
      unfold chunksOf at ha
      cases hr : s.remain with
      | none =>
        rw [hr] at hacc ha
        obtain ⟨k1, k2⟩ := accum_aligned B hBpos s.src (by simpa using ha) _ _ _ _ (by simpa using hacc)
        have := List.length_pos_iff.2 hacc'ne
        exact ⟨by omega, k2⟩
      | some c =>
        rw [hr] at hacc ha h6 h8
        simp only [Option.toList_some, List.singleton_append] at ha
        simp only [Option.toList_some, List.flatten_cons, List.flatten_nil, List.append_nil] at hacc h6
        have hcne : c ≠ [] := hne0 c (by rw [hr]; simp)
        have hcpos : 0 < c.length := List.length_pos_iff.2 hcne
        -- the same computation, started one chunk earlier
        have : accum B (c :: s.src) 0 [] = (acc', n', rest, e) := by
          unfold accum
          rw [if_pos hBpos, if_pos hcpos]
          simpa using hacc
        obtain ⟨k1, k2⟩ := accum_aligned B hBpos (c :: s.src) ha _ _ _ _ this
        have := List.length_pos_iff.2 hacc'ne
        exact ⟨by omega, k2⟩
    by_cases hgt : n' > B
    · -- the last batch is split
      have hefalse : e = false := by
        cases e with
        | false => rfl
        | true => have := (h4 rfl).2; omega
      obtain ⟨init, last, hil, hinit⟩ : ∃ init last, acc' = init ++ [last] ∧ init.flatten.length < B := by
        by_cases hs : s.remain.toList.flatten.length < B
        · exact h7 hs (by omega)
        · have := (h6 (by omega)).1
          cases hr : s.remain with
          | none => rw [hr] at hs; simp at hs; omega
          | some c =>
            rw [hr] at this
            exact ⟨[], c, by simpa using this, by simpa using hBpos⟩
      have hlen : n' = init.flatten.length + last.length := by rw [h2, hil]; simp
      have hls : last.length - (n' - B) = B - init.flatten.length := by omega
      have hsplit : splitLast B n' acc' = (init ++ [last.take (B - init.flatten.length)],
          some (last.drop (B - init.flatten.length))) := by
        unfold splitLast
        rw [if_pos hgt, hil]
        simp only [List.getLast?_append, List.getLast?_singleton, Option.some_or]
        rw [hls]
        simp only [List.dropLast_concat]
        have : (last.drop (B - init.flatten.length)).take (n' - B) = last.drop (B - init.flatten.length) := by
          apply List.take_of_length_le
          rw [List.length_drop]
          omega
        rw [this]
      rw [hsplit] at hread
      simp only at hread
      have htake : last.take (B - init.flatten.length) ≠ [] := by
        apply List.ne_nil_of_length_pos
        rw [List.length_take]
        omega
      have hdrop : last.drop (B - init.flatten.length) ≠ [] := by
        apply List.ne_nil_of_length_pos
        rw [List.length_drop]
        omega
      -- the first batch returned
      cases init with
      | nil =>
        simp only [List.nil_append, List.flatten_nil, List.length_nil, Nat.sub_zero] at hread htake hdrop
        refine ⟨last.take B, { s with src := rest, remain := some (last.drop B), eof := s.eof || e }, [],
          by unfold readNext; simp only [he, hread]; rfl, htake,
          by simp, ?_, ⟨hB, fun hh => hdrop (by injection hh), ?_⟩, rfl, ?_⟩
        · rw [hpend, hil]
          simp only [pending, Option.getD_some, List.nil_append, List.flatten_cons, List.flatten_nil, List.append_nil]
          rw [← List.append_assoc, List.take_append_drop]
        · intro hh
          simp [he, hefalse] at hh
        · intro ha
          refine ⟨rfl, ?_, .inl ?_⟩
          · obtain ⟨-, k2⟩ := hsingle ha
            rw [hil] at k2
            simp only [chunksOf, Option.toList_some, List.singleton_append, List.nil_append] at k2 ⊢
            refine ⟨?_, k2.2⟩
            rcases k2.1 with hd | hr
            · left
              rw [List.length_drop]
              exact Nat.dvd_sub hd (Nat.dvd_refl B)
            · exact .inr hr
          · simp at hlen
            simp
            omega
      | cons x xs =>
        have hxne : x ≠ [] := h3 x (by rw [hil]; simp)
        have hxlen : x.length ≤ B := by simp at hinit; omega
        have hr2 : readInner s = (.ok (some x), { s with src := rest, remain := some (last.drop (B - (x :: xs).flatten.length)), eof := s.eof || e }) := by
          rw [hread]
          cases xs with
          | nil => simp [combine, firstBatch, Except.map]
          | cons y ys => simp [combine, firstBatch, Except.map]
        refine ⟨x, { s with src := rest, remain := some (last.drop (B - (x :: xs).flatten.length)), eof := s.eof || e },
          xs.flatten ++ last.take (B - (x :: xs).flatten.length),
          by unfold readNext; simp only [he, hr2]; rfl, hxne, hxlen, ?_, ⟨hB, fun hh => hdrop (by injection hh), ?_⟩, rfl, ?_⟩
        · rw [hpend, hil]
          generalize B - (x :: xs).flatten.length = k
          simp only [pending, Option.getD_some, List.flatten_append, List.flatten_cons, List.flatten_nil,
            List.append_nil, List.append_assoc]
          rw [← List.append_assoc (last.take k), List.take_append_drop]
        · intro hh
          simp [he, hefalse] at hh
        · intro ha
          have := (hsingle ha).1
          rw [hil] at this
          simp at this
    · -- nothing is kept
      have hsplit : splitLast B n' acc' = (acc', none) := by
        unfold splitLast
        rw [if_neg hgt]
      rw [hsplit] at hread
      simp only at hread
      obtain ⟨x, xs, hx⟩ : ∃ x xs, acc' = x :: xs := by
        cases acc' with
        | nil => exact absurd rfl hacc'ne
        | cons x xs => exact ⟨x, xs, rfl⟩
      have hr2 : readInner s = (.ok (some x), { s with src := rest, remain := none, eof := s.eof || e }) := by
        rw [hread, hx]
        cases xs with
        | nil => rfl
        | cons y ys => rfl
      have hlen : n' = x.length + xs.flatten.length := by rw [h2, hx]; simp
      refine ⟨x, { s with src := rest, remain := none, eof := s.eof || e }, xs.flatten, by unfold readNext; simp only [he, hr2]; rfl,
        h3 x (by rw [hx]; simp), by omega, ?_, ⟨hB, by simp, ?_⟩, rfl, ?_⟩
      · rw [hpend, hx]
        simp [pending]
      · intro hh
        simp only [he, Bool.false_or] at hh
        simp [pending, (h4 hh).1]
      · intro ha
        obtain ⟨k1, k2⟩ := hsingle ha
        rw [hx] at k1 k2
        have hxs : xs = [] := by
          cases xs with
          | nil => rfl
          | cons => simp at k1
        subst hxs
        refine ⟨rfl, ?_, ?_⟩
        · simp only [chunksOf, Option.toList_none, List.nil_append]
          exact k2.2
        · cases e with
          | true =>
            right
            simp [pending, (h4 rfl).1]
          | false =>
            left
            have := h5 rfl
            simp at hlen
            omega

theorem drains_main (m : Nat) (s : Rd R) (hg : Good s) (hm : (pending s).length ≤ m) :
    ∃ outs, Drains s outs ∧ outs.flatten.Sublist (pending s) ∧
      (∀ b ∈ outs, b ≠ [] ∧ b.length ≤ s.batchSize.toNat) ∧
      (Aligned s.batchSize.toNat (chunksOf s) →
        outs.flatten = pending s ∧ ∀ b ∈ outs.dropLast, b.length = s.batchSize.toNat) := by
  induction m generalizing s with
  | zero =>
    have h0 : pending s = [] := List.length_eq_zero_iff.1 (by omega)
    refine ⟨[], ?_, by simp, by simp, fun _ => by simp [h0]⟩
    cases he : s.eof with
    | true => exact .stop (s' := s) (by unfold readNext; simp [he])
    | false =>
      rcases read_step s hg he with ⟨-, s', hs'⟩ | ⟨b, s', d, -, hb, -, hp, -⟩
      · exact .stop hs'
      · rw [h0] at hp
        have := congrArg List.length hp
        simp at this
        exact absurd (List.length_eq_zero_iff.1 (by omega)) hb
  | succ m ih =>
    cases he : s.eof with
    | true =>
      refine ⟨[], .stop (s' := s) (by unfold readNext; simp [he]), by simp, by simp, fun _ => ?_⟩
      simp [hg.2.2 he]
    | false =>
      rcases read_step s hg he with ⟨h0, s', hs'⟩ | ⟨b, s', d, hr, hb, hbl, hp, hg', hbs, hal⟩
      · exact ⟨[], .stop hs', by simp, by simp, fun _ => by simp [h0]⟩
      · have hbpos := List.length_pos_iff.2 hb
        have hlen := congrArg List.length hp
        simp at hlen
        obtain ⟨outs, ho, hsub, hsz, hal'⟩ := ih s' hg' (by omega)
        refine ⟨b :: outs, .step hr ho, ?_, ?_, ?_⟩
        · rw [hp, List.append_assoc]
          simp only [List.flatten_cons]
          exact (List.Sublist.refl b).append (hsub.trans (List.sublist_append_right _ _))
        · intro x hx
          rcases List.mem_cons.1 hx with rfl | hx
          · exact ⟨hb, hbl⟩
          · rw [← hbs]; exact hsz x hx
        · intro ha
          obtain ⟨hd, ha', hfull⟩ := hal ha
          rw [hbs] at hal'
          obtain ⟨hf, hd2⟩ := hal' ha'
          refine ⟨by rw [hp, hd, ← hf]; simp, ?_⟩
          intro x hx
          cases outs with
          | nil => simp at hx
          | cons y ys =>
            rw [List.dropLast_cons_of_ne_nil (by simp)] at hx
            rcases List.mem_cons.1 hx with rfl | hx
            · rcases hfull with hfull | hfull
              · exact hfull
              · exfalso
                rw [hfull] at hf
                have := (hsz y (by simp)).1
                simp at hf
                exact this hf.1
            · exact hd2 x hx

theorem drains_unique {s : Rd R} {a b : List (List R)} (ha : Drains s a) (hb : Drains s b) : a = b := by
  induction ha generalizing b with
  | stop h =>
    cases hb with
    | stop => rfl
    | step h' => rw [h] at h'; cases h'
  | step h _ ih =>
    cases hb with
    | stop h' => rw [h] at h'; cases h'
    | step h' hr =>
      rw [h] at h'
      cases h'
      rw [ih hr]

/-- **C57 without a batch size** (the default): iterating a reader delivers exactly the chunks of the source, so every
row once and in order. -/
theorem table_reader_native (chunks : List (List R)) (bs : Int) (hbs : bs ≤ 0) :
    Drains (open' chunks bs) chunks ∧ ∀ outs, Drains (open' chunks bs) outs → outs = chunks := by
  have h : ∀ (l : List (List R)), Drains (open' l bs) l := by
    intro l
    induction l with
    | nil =>
      refine .stop (s' := { (open' [] bs) with eof := true }) ?_
      unfold readNext readInner open'
      simp [hbs]
    | cons c r ih =>
      refine .step (s' := open' r bs) ?_ ih
      unfold readNext readInner open'
      simp [hbs]
  exact ⟨h chunks, fun outs ho => drains_unique ho (h chunks)⟩

example : Drains (open' [[1, 2], [], [3]] (-1)) [[1, 2], [], [3]] := (table_reader_native _ _ (by decide)).1

/-- **C57 with a batch size (partial).**  Whatever the chunking, iterating terminates, delivers only non-empty batches
of at most the requested size, and never duplicates or reorders a row.  If every chunk boundary falls on a batch
boundary, it delivers exactly the rows of the table and every batch but the last has the requested size.  Missing:
that no row is lost for other chunkings, see `table_reader_loses_rows_violated`. -/
theorem table_reader_partial (chunks : List (List R)) (bs : Int) (hbs : 0 < bs) :
    ∃ outs, Drains (open' chunks bs) outs ∧ outs.flatten.Sublist chunks.flatten ∧
      (∀ b ∈ outs, b ≠ [] ∧ b.length ≤ bs.toNat) ∧
      (Aligned bs.toNat chunks → outs.flatten = chunks.flatten ∧ ∀ b ∈ outs.dropLast, b.length = bs.toNat) := by
  have hg : Good (open' chunks bs) := ⟨hbs, by simp [open'], by simp [open']⟩
  obtain ⟨outs, h1, h2, h3, h4⟩ := drains_main _ (open' chunks bs) hg (le_refl _)
  refine ⟨outs, h1, by simpa [pending, open'] using h2, by simpa [open'] using h3, ?_⟩
  intro ha
  have := h4 (by simpa [chunksOf, open'] using ha)
  simpa [pending, open'] using this

/-- A single chunk is always aligned. -/
example : Aligned 2 [[1, 2, 3, 4, 5]] ∧ Aligned 2 [[1, 2], [], [3, 4, 5, 6], [7]] := by
  constructor
  · exact ⟨.inr rfl, trivial⟩
  · exact ⟨.inl ⟨1, rfl⟩, .inl ⟨0, rfl⟩, .inl ⟨2, rfl⟩, .inr rfl, trivial⟩

/-- **C57 is violated**: when the source's chunks are smaller than the batch size — the normal case for a Parquet file
of more than 65536 rows read with the default batch size of 1000000 — only the first chunk of every batch is returned
and the others are lost, without an error. -/
theorem table_reader_loses_rows_violated (c1 c2 : List R) (bs : Int) (h1 : c1 ≠ []) (h2 : c2 ≠ [])
    (h : ((c1.length + c2.length : Nat) : Int) < bs) :
    Drains (open' [c1, c2] bs) [c1] ∧ [c1].flatten.length < [c1, c2].flatten.length := by
  have p1 := List.length_pos_iff.2 h1
  have p2 := List.length_pos_iff.2 h2
  have hB : ¬ bs ≤ 0 := by omega
  refine ⟨?_, by simp; omega⟩
  have hr : readNext (open' [c1, c2] bs) = (.ok c1, { src := [], batchSize := bs, remain := none, eof := true }) := by
    unfold readNext readInner open'
    simp only [hB, if_false]
    have e1 : 0 < bs.toNat := by omega
    have e2 : c1.length < bs.toNat := by omega
    have e3 : c1.length + c2.length < bs.toNat := by omega
    have hne : c1.length + c2.length ≠ 0 := by omega
    simp [accum, e1, e2, e3, p1, p2, h1, splitLast, Nat.not_lt_of_lt e3, combine, firstBatch, Except.map]
  exact .step hr (.stop (s' := { src := [], batchSize := bs, remain := none, eof := true })
    (by simp [readNext]))

/-- `read_all` on a new reader returns every row; **after** a batch that left a remainder it returns less than what was
not delivered (violation of "read all remaining data"). -/
theorem read_all_fresh (chunks : List (List R)) (bs : Int) : readAll (open' chunks bs) = chunks.flatten := rfl

theorem read_all_after_batch_violated (c : List R) (bs : Int) (hbs : 0 < bs) (h : bs < (c.length : Int)) :
    ∃ s, readNext (open' [c] bs) = (.ok (c.take bs.toNat), s) ∧ readAll s = [] ∧ pending s = c.drop bs.toNat ∧
      pending s ≠ [] := by
  have hB : ¬ bs ≤ 0 := by omega
  refine ⟨{ src := [], batchSize := bs, remain := some (c.drop bs.toNat), eof := false }, ?_, rfl, by simp [pending], ?_⟩
  · unfold readNext readInner open'
    simp only [hB, if_false]
    have e1 : 0 < bs.toNat := by omega
    have e2 : ¬ c.length < bs.toNat := by omega
    have e3 : c.length > bs.toNat := by omega
    have e4 : 0 < c.length := by omega
    have e5 : c ≠ [] := by intro h0; simp [h0] at e4
    have e6 : c.length - (c.length - bs.toNat) = bs.toNat := by omega
    have e7 : (c.drop bs.toNat).take (c.length - bs.toNat) = c.drop bs.toNat := by
      apply List.take_of_length_le; simp
    simp [accum, e1, e2, e3, e4, e5, splitLast, e6, e7, combine, Except.map]
  · apply List.ne_nil_of_length_pos
    simp [pending]
    omega

example : ∃ s, readNext (open' [[1, 2, 3]] 2) = (.ok [1, 2], s) ∧ readAll s = [] := ⟨_, rfl, rfl⟩

end Verif.Table
