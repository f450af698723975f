/-!
# The parties an operation runs among (`SimpWorker.current_parties`, backends/simp_worker/ops.py:39-79, collectives.py:47-82,
spu_impl.py:250-266)

`current_parties` is a field of the worker that `pcall_static` overwrites and puts back.  All handlers that read or write it run on
the thread that evaluates the request (only local arithmetic is handed to the executor, simp_worker/infra.py:37-52).
-/
namespace Verif.Simp.PartyScope

mutual
/-- what the handlers of a graph do, in order, as far as parties are concerned; `L` are labels of operations -/
inductive Act (L : Type) where
  /-- an operation that needs to know its parties: `spu.exec`, a verified `uniform_cond`, a collective (with the `parties` attribute
  of the operation, if it has one) -/
  | use (label : L) (attr : Option (List Nat))
  /-- `pcall_static` with its region -/
  | pcall (parties : List Nat) (body : Acts L)
  /-- a region evaluated without change of parties: `pcall_dynamic`, the branch of a conditional, an iteration of a loop, a call -/
  | region (body : Acts L)
  /-- an operation that raises, at the parties for which the flag is set -/
  | fail (at' : Nat → Bool)
/-- a list of `Act` -/
inductive Acts (L : Type) where
  | nil
  | cons (a : Act L) (as : Acts L)
end

variable {L : Type}

/-- the worker: `current_parties`, and what was observed: who asked, and the field at this moment -/
structure St (L : Type) where
  cur : Option (List Nat)
  log : List (L × Option (List Nat) × Option (List Nat))

mutual
/-- one handler at party `rank` (ops.py:39-79): the answer says whether it did not raise; `finally` restores the field -/
def Act.run (rank : Nat) : Act L → St L → St L × Bool
  | .use l attr, s => ({ s with log := s.log ++ [(l, attr, s.cur)] }, true)
  | .pcall ps body, s =>
    if rank ∈ ps then
      let r := body.run rank { s with cur := some ps }
      ({ r.1 with cur := s.cur }, r.2)
    else (s, true)
  | .region body, s => body.run rank s
  | .fail p, s => (s, !p rank)
/-- the handlers of a region in order, up to the first that raises (runtime/interpreter.py:900-1014) -/
def Acts.run (rank : Nat) : Acts L → St L → St L × Bool
  | .nil, s => (s, true)
  | .cons a as, s =>
    let r := a.run rank s
    if r.2 then as.run rank r.1 else r
end

/-- `resolve_participants` (collectives.py:47-82): the argument, the attribute of the operation, the current parties, all ranks -/
def resolve (explicit attr cur : Option (List Nat)) (world : Nat) : List Nat :=
  match explicit with
  | some ps => ps
  | none => match attr with
    | some ps => ps
    | none => match cur with
      | some ps => ps
      | none => List.range world

/-- several requests evaluated one after the other on one worker, whether they raise or not -/
def requests (rank : Nat) : List (Acts L) → St L → St L
  | [], s => s
  | a :: as, s => requests rank as (a.run rank s).1

/-! ## Specification: lexical scope -/

mutual
/-- what `rank` must observe in an operation that stands inside the `pcall_static`s whose innermost has the parties `scope`; and whether
it gets through -/
def Act.seen (rank : Nat) (scope : Option (List Nat)) : Act L → List (L × Option (List Nat) × Option (List Nat)) × Bool
  | .use l attr => ([(l, attr, scope)], true)
  | .pcall ps body => if rank ∈ ps then body.seen rank (some ps) else ([], true)
  | .region body => body.seen rank scope
  | .fail p => ([], !p rank)
/-- see `Act.seen` -/
def Acts.seen (rank : Nat) (scope : Option (List Nat)) : Acts L → List (L × Option (List Nat) × Option (List Nat)) × Bool
  | .nil => ([], true)
  | .cons a as => if (a.seen rank scope).2 then ((a.seen rank scope).1 ++ (as.seen rank scope).1, (as.seen rank scope).2)
    else a.seen rank scope
end

/-! ## Properties -/

mutual
theorem Act.run_seen (rank : Nat) : (a : Act L) → (s : St L) →
    a.run rank s = (⟨s.cur, s.log ++ (a.seen rank s.cur).1⟩, (a.seen rank s.cur).2)
  | .use l attr, s => by simp [Act.run, Act.seen]
  | .pcall ps body, s => by
    simp only [Act.run, Act.seen]
    split
    · rw [Acts.run_seen rank body]
    · simp
  | .region body, s => by
    simp only [Act.run, Act.seen]
    exact Acts.run_seen rank body s
  | .fail p, s => by simp [Act.run, Act.seen]
theorem Acts.run_seen (rank : Nat) : (a : Acts L) → (s : St L) →
    a.run rank s = (⟨s.cur, s.log ++ (a.seen rank s.cur).1⟩, (a.seen rank s.cur).2)
  | .nil, s => by simp [Acts.run, Acts.seen]
  | .cons a as, s => by
    simp only [Acts.run, Acts.seen]
    rw [Act.run_seen rank a s]
    cases h : (a.seen rank s.cur).2 with
    | false => simp [h]
    | true =>
      simp only [if_true]
      rw [Acts.run_seen rank as]
      simp
end

/-- **C81**: Whatever requests a worker has evaluated before, and however they ended, every operation of a request runs among exactly
the parties of the innermost enclosing `pcall_static` (all parties outside of one), and the worker is left as it was. -/
theorem parties_lexical (rank : Nat) (before : List (Acts L)) (req : Acts L) (s : St L) (h : s.cur = none) :
    (requests rank before s).cur = none ∧
    req.run rank (requests rank before s) =
      (⟨none, (requests rank before s).log ++ (req.seen rank none).1⟩, (req.seen rank none).2) := by
  have key : ∀ (before : List (Acts L)) (s : St L), s.cur = none → (requests rank before s).cur = none := by
    intro before
    induction before with
    | nil => intro s h; exact h
    | cons a as ih =>
      intro s h
      exact ih _ (by rw [Acts.run_seen]; exact h)
  have hc := key before s h
  exact ⟨hc, by rw [Acts.run_seen, hc]⟩

mutual
theorem Act.seen_member (rank : Nat) : (a : Act L) → (scope : Option (List Nat)) → (∀ ps, scope = some ps → rank ∈ ps) →
    ∀ u ∈ (a.seen rank scope).1, ∀ ps, u.2.2 = some ps → rank ∈ ps
  | .use l attr, scope, hs, u, hu, ps, e => by
    simp only [Act.seen, List.mem_singleton] at hu
    subst hu
    exact hs ps e
  | .pcall qs body, scope, hs, u, hu, ps, e => by
    simp only [Act.seen] at hu
    split at hu
    · rename_i hm
      exact Acts.seen_member rank body (some qs) (fun x hx => by cases hx; exact hm) u hu ps e
    · cases hu
  | .region body, scope, hs, u, hu, ps, e => Acts.seen_member rank body scope hs u (by simpa only [Act.seen] using hu) ps e
  | .fail p, scope, hs, u, hu, ps, e => by simp only [Act.seen] at hu; cases hu
theorem Acts.seen_member (rank : Nat) : (a : Acts L) → (scope : Option (List Nat)) → (∀ ps, scope = some ps → rank ∈ ps) →
    ∀ u ∈ (a.seen rank scope).1, ∀ ps, u.2.2 = some ps → rank ∈ ps
  | .nil, scope, hs, u, hu, ps, e => by simp only [Acts.seen] at hu; cases hu
  | .cons a as, scope, hs, u, hu, ps, e => by
    simp only [Acts.seen] at hu
    split at hu
    · rcases List.mem_append.mp hu with hu | hu
      · exact Act.seen_member rank a scope hs u hu ps e
      · exact Acts.seen_member rank as scope hs u hu ps e
    · exact Act.seen_member rank a scope hs u hu ps e
end

/-- **C81**: No operation ever runs among parties of which its own party is not one. -/
theorem parties_contain_self (rank : Nat) (req : Acts L) (u : L × Option (List Nat) × Option (List Nat))
    (hu : u ∈ (req.run rank ⟨none, []⟩).1.log) (ps : List Nat) (e : u.2.2 = some ps) : rank ∈ ps := by
  rw [Acts.run_seen] at hu
  exact Acts.seen_member rank req none (fun _ h => by cases h) u (by simpa using hu) ps e

mutual
/-- the request raises nowhere -/
def Act.quiet : Act L → Prop
  | .use _ _ => True
  | .pcall _ body => body.quiet
  | .region body => body.quiet
  | .fail p => ∀ r, p r = false
/-- see `Act.quiet` -/
def Acts.quiet : Acts L → Prop
  | .nil => True
  | .cons a as => a.quiet ∧ as.quiet
end

mutual
/-- every `pcall_static` inside another names only parties of the outer one (which is all that tracing can produce, as the values of a
region live at its parties) -/
def Act.nested (scope : Option (List Nat)) : Act L → Prop
  | .use _ _ => True
  | .pcall ps body => (∀ qs, scope = some qs → ∀ p ∈ ps, p ∈ qs) ∧ body.nested (some ps)
  | .region body => body.nested scope
  | .fail _ => True
/-- see `Act.nested` -/
def Acts.nested (scope : Option (List Nat)) : Acts L → Prop
  | .nil => True
  | .cons a as => a.nested scope ∧ as.nested scope
end

/-- the observations of one scope -/
def among (ps : List Nat) (l : List (L × Option (List Nat) × Option (List Nat))) : List (L × Option (List Nat) × Option (List Nat)) :=
  l.filter fun u => decide (u.2.2 = some ps)

theorem among_append (ps : List Nat) (l m : List (L × Option (List Nat) × Option (List Nat))) :
    among ps (l ++ m) = among ps l ++ among ps m := List.filter_append ..

mutual
theorem Act.quiet_ok (rank : Nat) : (a : Act L) → (scope : Option (List Nat)) → a.quiet → (a.seen rank scope).2 = true
  | .use _ _, _, _ => rfl
  | .pcall ps body, scope, h => by
    simp only [Act.seen]
    split
    · exact Acts.quiet_ok rank body _ h
    · rfl
  | .region body, scope, h => Acts.quiet_ok rank body scope h
  | .fail p, _, h => by simp only [Act.seen, h rank]; rfl
theorem Acts.quiet_ok (rank : Nat) : (a : Acts L) → (scope : Option (List Nat)) → a.quiet → (a.seen rank scope).2 = true
  | .nil, _, _ => rfl
  | .cons a as, scope, h => by
    simp only [Acts.seen, Act.quiet_ok rank a scope h.1, if_true]
    exact Acts.quiet_ok rank as scope h.2
end

mutual
/-- nothing is observed among parties that are not all in the scope -/
theorem Act.among_none (rank : Nat) (ps : List Nat) (p : Nat) (hp : p ∈ ps) : (a : Act L) → (qs : List Nat) → a.nested (some qs) →
    p ∉ qs → among ps (a.seen rank (some qs)).1 = []
  | .use l attr, qs, _, hq => by
    simp only [Act.seen, among, List.filter_cons, List.filter_nil]
    rw [if_neg]
    simp only [Option.some.injEq, decide_eq_true_eq]
    rintro rfl
    exact hq hp
  | .pcall rs body, qs, h, hq => by
    simp only [Act.seen]
    split
    · exact Acts.among_none rank ps p hp body rs h.2 (fun hr => hq (h.1 qs rfl p hr))
    · rfl
  | .region body, qs, h, hq => Acts.among_none rank ps p hp body qs h hq
  | .fail _, _, _, _ => rfl
theorem Acts.among_none (rank : Nat) (ps : List Nat) (p : Nat) (hp : p ∈ ps) : (a : Acts L) → (qs : List Nat) → a.nested (some qs) →
    p ∉ qs → among ps (a.seen rank (some qs)).1 = []
  | .nil, _, _, _ => rfl
  | .cons a as, qs, h, hq => by
    simp only [Acts.seen]
    split
    · rw [among_append, Act.among_none rank ps p hp a qs h.1 hq, Acts.among_none rank ps p hp as qs h.2 hq]; rfl
    · exact Act.among_none rank ps p hp a qs h.1 hq
end

mutual
theorem Act.among_agree (r r' : Nat) (ps : List Nat) (hr : r ∈ ps) (hr' : r' ∈ ps) : (a : Act L) → (scope : Option (List Nat)) →
    a.quiet → a.nested scope → among ps (a.seen r scope).1 = among ps (a.seen r' scope).1
  | .use _ _, _, _, _ => rfl
  | .pcall qs body, scope, h, hn => by
    simp only [Act.seen]
    by_cases h1 : r ∈ qs <;> by_cases h2 : r' ∈ qs
    · rw [if_pos h1, if_pos h2]; exact Acts.among_agree r r' ps hr hr' body _ h hn.2
    · rw [if_pos h1, if_neg h2]; exact Acts.among_none r ps r' hr' body qs hn.2 h2
    · rw [if_neg h1, if_pos h2]; exact (Acts.among_none r' ps r hr body qs hn.2 h1).symm
    · rw [if_neg h1, if_neg h2]
  | .region body, scope, h, hn => Acts.among_agree r r' ps hr hr' body scope h hn
  | .fail _, _, _, _ => rfl
theorem Acts.among_agree (r r' : Nat) (ps : List Nat) (hr : r ∈ ps) (hr' : r' ∈ ps) : (a : Acts L) → (scope : Option (List Nat)) →
    a.quiet → a.nested scope → among ps (a.seen r scope).1 = among ps (a.seen r' scope).1
  | .nil, _, _, _ => rfl
  | .cons a as, scope, h, hn => by
    simp only [Acts.seen, Act.quiet_ok r a scope h.1, Act.quiet_ok r' a scope h.1, if_true]
    rw [among_append, among_append, Act.among_agree r r' ps hr hr' a scope h.1 hn.1, Acts.among_agree r r' ps hr hr' as scope h.2 hn.2]
end

/-- **C81**: If nothing raises, all members of a set of parties run the same operations among these parties, in the same order. -/
theorem parties_meet (r r' : Nat) (ps : List Nat) (hr : r ∈ ps) (hr' : r' ∈ ps) (req : Acts L) (h : req.quiet) (hn : req.nested none) :
    among ps (req.run r ⟨none, []⟩).1.log = among ps (req.run r' ⟨none, []⟩).1.log := by
  rw [Acts.run_seen, Acts.run_seen]
  simpa using Acts.among_agree r r' ps hr hr' req none h hn

/-- **C81**: The participants of a collective: what the caller says, else what the operation says, else the parties of the enclosing
`pcall_static`, else everybody. -/
theorem participants (explicit attr cur : Option (List Nat)) (world : Nat) (ps : List Nat) :
    resolve explicit attr cur world = ps ↔
      explicit = some ps ∨ (explicit = none ∧ attr = some ps) ∨ (explicit = none ∧ attr = none ∧ cur = some ps) ∨
        (explicit = none ∧ attr = none ∧ cur = none ∧ ps = List.range world) := by
  cases explicit <;> cases attr <;> cases cur <;> simp [resolve, eq_comm]

/-- two SPUs, the second call inside a branch, and a request before that raises inside a call at party 0 -/
def exReq : Acts String :=
  .cons (.use "verify" none) <| .cons (.pcall [0, 1] (.cons (.use "spu a" none) .nil)) <|
    .cons (.region (.cons (.pcall [1, 2] (.cons (.region (.cons (.use "spu b" none) .nil)) .nil)) .nil)) .nil

/-- see `exReq` -/
def exBad : Acts String := .cons (.pcall [0, 1] (.cons (.use "spu" none) (.cons (.fail fun r => r == 0) (.cons (.use "after" none) .nil)))) .nil

example : exReq.quiet := by simp [exReq, Acts.quiet, Act.quiet]
example : exReq.nested none := by simp [exReq, Acts.nested, Act.nested]
example : (exBad.run 0 ⟨none, []⟩).2 = false ∧ (exBad.run 0 ⟨none, []⟩).1.cur = none ∧
    (exReq.run 1 (requests 1 [exBad] ⟨none, []⟩)).1.log =
      [("spu", none, some [0, 1]), ("after", none, some [0, 1]), ("verify", none, none), ("spu a", none, some [0, 1]),
        ("spu b", none, some [1, 2])] := by decide
example : resolve none none (some [2, 1]) 4 = [2, 1] ∧ resolve none none none 3 = [0, 1, 2] := by decide

end Verif.Simp.PartyScope
