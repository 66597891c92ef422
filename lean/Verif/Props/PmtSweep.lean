import Verif.Proofs.PmtSweep
import Verif.Props.PmtIter
import Verif.Props.PmtThreads
/-!
C99: iterators over a trie while others use the database.
-/

set_option autoImplicit false

namespace Verif.Props
open Verif Verif.Pmt PmtEx

variable {K : Keccak}

theorem HandleInv.fed {P : Prop} {db : Db} {tr : Trie} {m : Spec.Map} (h : HandleInv K P db tr m) : Fed K (InLog db) (Iter.new tr) := by
  obtain ⟨_, t, h1, h2, _⟩ := h
  intro e he
  simp only [Iter.new, List.mem_singleton] at he
  subst he
  exact ⟨t, h1, h2⟩

/-- **C99**: an iterator is opened on a trie of an archive database, and before each call of `next` any other calls are made on the tries of the database (the
same one included: an owned iterator has a copy). The iterator does what it does when nothing is called in between, panics included; or two of the stored
byte strings collide. -/
theorem C99_calls_partial {ops : List Op} (hfit : ∀ op ∈ ops, Spec.Fits op) {s : Sys} {rs : List Ret} (hrun : (Sys.new false).run K ops = .ok (s, rs))
    {i : Nat} {tr : Trie} (htr : s.tries[i]? = some tr) {blocks : List (List Op)} (hb : ∀ b ∈ blocks, ∀ op ∈ b, Spec.Fits op) {s' : Sys} {rs' : List Ret}
    (hrest : s.run K blocks.flatten = .ok (s', rs')) (fuel : Nat) :
    Spec.Collision K s'.db.log ∨
      s.sweep K fuel (Iter.new tr) blocks = ((Iter.new tr).calls s.db fuel blocks.length).map (fun r => (s', r.1, r.2)) := by
  rcases collision_or K s'.db.log with hc | hnc
  · exact .inl hc
  have hncs : NoClash K s.db.log := hnc.subset (Sys.run_log hrest)
  have g := SysInv.new.run (P := False) hfit False.elim hrun hncs
  obtain ⟨m, _, hh⟩ := g.tries.some htr
  exact .inr ((HandleInv.fed hh).sweep (g.db.reads hncs) fuel blocks g (fun _ h => h) hb hrest hnc)

/-- **C99**, in terms of maps: the calls of `next` return the pairs that the trie had when the iterator was opened, one after the other in the order of the keys,
and then `None`, whatever is called in between. The empty key has the same exceptions as in C45. -/
theorem C99_pairs_partial {ops : List Op} (hfit : ∀ op ∈ ops, Spec.Fits op) {s : Sys} {rs : List Ret} (hrun : (Sys.new false).run K ops = .ok (s, rs))
    {i : Nat} {tr : Trie} {m : Spec.Map} (htr : s.tries[i]? = some tr) (hm : (Spec.run ops).maps[i]? = some m)
    (he : m [] = none ∨ (Spec.Plain ops ∧ ∀ k, k ≠ [] → m k = none)) :
    Spec.Collision K s.db.log ∨ ∃ l : List (Bytes × Bytes), l.Pairwise (fun a b => a.1 < b.1) ∧ (∀ k v, (k, v) ∈ l ↔ m k = some v) ∧
      ∃ N, ∀ fuel, N ≤ fuel → ∀ blocks : List (List Op), (∀ b ∈ blocks, ∀ op ∈ b, Spec.Fits op) → ∀ s' rs', s.run K blocks.flatten = .ok (s', rs') →
        Spec.Collision K s'.db.log ∨
        ∃ it, s.sweep K fuel (Iter.new tr) blocks = .ok (s', it, (l.map some ++ List.replicate blocks.length none).take blocks.length) := by
  rcases collision_or K s.db.log with hc | hnc
  · exact .inl hc
  have g := SysInv.new.run (P := Spec.Plain ops) hfit (fun p => p) hrun hnc
  obtain ⟨l, ⟨n, hv⟩, h1, h2⟩ := visits_pairs (g.db.reads hnc) (g.tries.2 i tr m htr hm) he
  refine .inr ⟨l, h1, h2, n + 1, fun fuel hf blocks hb s' rs' hrest => ?_⟩
  rcases C99_calls_partial hfit hrun htr hb hrest fuel with hc | e
  · exact .inl hc
  obtain ⟨it, e'⟩ := hv.calls rfl (show n < fuel by omega) blocks.length
  rw [e'] at e
  exact .inr ⟨it, e⟩

/-- **C99**, with threads: while other threads make calls on their clones of the tries, in any interleaving of the accesses to the database, the pairs that the
iterator has returned are the first ones of the trie as it was when the iterator was opened, and after sufficiently many rounds all of them. -/
theorem C99_threads_partial {ops : List Op} (hfit : ∀ op ∈ ops, Spec.Fits op) {s : Sys} {rs : List Ret} (hrun : (Sys.new false).run K ops = .ok (s, rs))
    {progs : List (List Ask)} (hp : ∀ prog ∈ progs, ∀ a ∈ prog, Spec.FitsAsk a) (halone : ∀ prog ∈ progs, ∃ sf rs, s.asks K prog = .ok (sf, rs))
    {i : Nat} {tr : Trie} {m : Spec.Map} (htr : s.tries[i]? = some tr) (hm : (Spec.run ops).maps[i]? = some m)
    (he : m [] = none ∨ (Spec.Plain ops ∧ ∀ k, k ≠ [] → m k = none)) :
    Spec.Collision K s.db.log ∨ ∃ l : List (Bytes × Bytes), l.Pairwise (fun a b => a.1 < b.1) ∧ (∀ k v, (k, v) ∈ l ↔ m k = some v) ∧
      ∃ N, ∀ schedule : List (Option Nat), Spec.Collision K ((Pool.start s progs).run K (schedule.filterMap id)).db.log ∨
        ∃ it out, (Pool.start s progs).sweep K (Iter.new tr) schedule = .ok ((Pool.start s progs).run K (schedule.filterMap id), it, out) ∧
          out <+: l ∧ (N ≤ schedule.count none → out = l) := by
  rcases collision_or K s.db.log with hc | hncs
  · exact .inl hc
  have g := SysInv.new.run (P := Spec.Plain ops) hfit (fun p => p) hrun hncs
  have g0 := SysInv.new.run (P := False) hfit False.elim hrun hncs
  have hh := g.tries.2 i tr m htr hm
  obtain ⟨l, ⟨n, hv⟩, h1, h2⟩ := visits_pairs (g.db.reads hncs) hh he
  refine .inr ⟨l, h1, h2, n, fun schedule => ?_⟩
  rcases collision_or K ((Pool.start s progs).run K (schedule.filterMap id)).db.log with hc | hnc
  · exact .inl hc
  exact .inr ((HandleInv.fed hh).pool (g.db.reads hncs) hp (fun prog hm => by obtain ⟨sf, rs, h⟩ := halone prog hm; exact Goes.of_run h _) schedule
    (PoolInv.start g0 progs) (fun _ h => h) hv rfl hnc)

/-! ### Examples -/

/-- Between the calls of `next`, the trie is changed and committed twice. -/
def exBlocks : List (List Op) :=
  [[.insert 0 [0x92, 0x55] [7]], [.commit 0, .remove 0 [0x12, 0x35]], [.new, .insert 1 [0x12] (long 3), .commit 1, .commit 0], []]

theorem exBlocks_fits : ∀ b ∈ exBlocks, ∀ op ∈ b, Spec.Fits op := by
  intro b hb op hop
  simp only [exBlocks, List.mem_cons, List.not_mem_nil, or_false] at hb
  rcases hb with rfl | rfl | rfl | rfl <;> simp only [List.mem_cons, List.not_mem_nil, or_false] at hop
  · subst hop; simp [Spec.Fits]
  · rcases hop with rfl | rfl <;> simp [Spec.Fits]
  · rcases hop with rfl | rfl | rfl | rfl <;> simp [Spec.Fits, long]

/-- What the calls of `next` return. -/
def swept (light : Bool) (blocks : List (List Op)) : List (Option (Bytes × Bytes)) :=
  (((result light exStart).1.sweep exK 200 (Iter.new (handle light exStart 0)) blocks).toOption.map (fun r => r.2.2)).getD []

theorem exBlocks_swept : swept false exBlocks =
    [some ([0x12, 0x34], long 1), some ([0x12, 0x35], [7]), some ([0x92, 0x55], long 2), none] := by decide +kernel

/-- The state after the blocks. -/
def exBlocksAfter : Sys × List Ret := ((result false exStart).1.run exK exBlocks.flatten).toOption.getD (Sys.new false, [])

theorem exBlocksAfter_eq : (result false exStart).1.run exK exBlocks.flatten = .ok (exBlocksAfter.1, exBlocksAfter.2) := by
  have h : ((result false exStart).1.run exK exBlocks.flatten).toOption.isSome = true := by decide +kernel
  unfold exBlocksAfter
  generalize (result false exStart).1.run exK exBlocks.flatten = x at *
  cases x with
  | error => cases h
  | ok => rfl

theorem exBlocksAfter_noCollision : ¬ Spec.Collision exK exBlocksAfter.1.db.log := by decide +kernel

example : (result false exStart).1.sweep exK 200 (Iter.new (handle false exStart 0)) exBlocks =
    ((Iter.new (handle false exStart 0)).calls (result false exStart).1.db 200 4).map (fun r => (exBlocksAfter.1, r.1, r.2)) :=
  (C99_calls_partial exStart_fits (result_eq (by decide +kernel)) (handle_eq (i := 0) (by decide +kernel)) exBlocks_fits exBlocksAfter_eq 200).resolve_left
    exBlocksAfter_noCollision

example : ∃ l : List (Bytes × Bytes), l.Pairwise (fun a b => a.1 < b.1) ∧ (∀ k v, (k, v) ∈ l ↔ mapOf exStart 0 k = some v) ∧
    ∃ N, ∀ fuel, N ≤ fuel → ∃ it, (result false exStart).1.sweep exK fuel (Iter.new (handle false exStart 0)) exBlocks
      = .ok (exBlocksAfter.1, it, (l.map some ++ List.replicate 4 none).take 4) := by
  obtain ⟨l, h1, h2, N, h3⟩ := (C99_pairs_partial exStart_fits (result_eq (by decide +kernel)) (handle_eq (light := false) (ops := exStart) (i := 0) (by decide +kernel))
    (mapOf_eq (ops := exStart) (i := 0) (by decide +kernel)) (.inl (by decide +kernel))).resolve_left (by decide +kernel)
  exact ⟨l, h1, h2, N, fun fuel hf => (h3 fuel hf exBlocks exBlocks_fits _ _ exBlocksAfter_eq).resolve_left exBlocksAfter_noCollision⟩

/-- Two threads and an iterating one take turns. -/
def exTurns : List (Option Nat) := ((List.range 150).map (fun n => if n % 3 = 2 then none else some (n % 3)))

theorem exTurns_noCollision : ¬ Spec.Collision exK ((Pool.start (result false exStart).1 exProgs).run exK (exTurns.filterMap id)).db.log := by decide +kernel

theorem exTurns_out : (((Pool.start (result false exStart).1 exProgs).sweep exK (Iter.new (handle false exStart 0)) exTurns).toOption.map (fun r => r.2.2)) =
    some [([0x12, 0x34], long 1), ([0x12, 0x35], [7])] := by decide +kernel

example : ∃ l : List (Bytes × Bytes), l.Pairwise (fun a b => a.1 < b.1) ∧ (∀ k v, (k, v) ∈ l ↔ mapOf exStart 0 k = some v) ∧
    ∃ it out, (Pool.start (result false exStart).1 exProgs).sweep exK (Iter.new (handle false exStart 0)) exTurns =
      .ok ((Pool.start (result false exStart).1 exProgs).run exK (exTurns.filterMap id), it, out) ∧ out <+: l := by
  obtain ⟨l, h1, h2, N, h3⟩ := (C99_threads_partial exStart_fits (result_eq (by decide +kernel)) exProgs_fits exProgs_alone
    (handle_eq (light := false) (ops := exStart) (i := 0) (by decide +kernel))
    (mapOf_eq (ops := exStart) (i := 0) (by decide +kernel)) (.inl (by decide +kernel))).resolve_left (by decide +kernel)
  obtain ⟨it, out, h4, h5, -⟩ := (h3 exTurns).resolve_left exTurns_noCollision
  exact ⟨l, h1, h2, it, out, h4, h5⟩

/-! ### Where it is false -/

/-- **C99 is false** of pruning databases: if the trie is changed and committed while an owned iterator over a copy of it is on its way, the nodes that the iterator
still has to visit are deleted, and it ends without the pairs below them as if there were none. -/
theorem C99_pruning_false : (Sys.new true).run exK exStart = .ok ((result true exStart).1, (result true exStart).2) ∧
    swept true [[], [], [], []] = [some ([0x12, 0x34], long 1), some ([0x12, 0x35], [7]), some ([0x92, 0x55], long 2), none] ∧
    swept true [[], [.insert 0 [0x92, 0x55] [7], .commit 0], [], []] = [some ([0x12, 0x34], long 1), some ([0x12, 0x35], [7]), none, none] :=
  ⟨result_eq (by decide +kernel), by decide +kernel, by decide +kernel⟩

end Verif.Props
