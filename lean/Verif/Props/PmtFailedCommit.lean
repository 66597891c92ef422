import Verif.Proofs.PmtCount
import Verif.Props.PmtFault
/-! Property C77: commits during which the database returns an error. -/

set_option autoImplicit false

namespace Verif.Props
open Verif Verif.Pmt PmtEx
variable {K : Keccak}

/-- **C77.** Commits that fail, whatever part of the nodes the database has written or removed before the error, have no effect on an archive database:
if a program without them succeeds, then with them all its calls return the same as without (in particular a repeated commit returns the root hash the
failed one would have returned), the same root hashes can be opened, and every trie gives the values of the map it stands for without them; or else, after
some of the calls, two different byte strings stored with or without them have the same hash. -/
theorem C77_failed_commits {ops : List FOp} (hfit : ∀ op ∈ Spec.calls ops, Spec.Fits op) {s0 : Sys} {rs : List Ret}
    (hrun : (Sys.new false).run K (Spec.calls ops) = .ok (s0, rs)) :
    (∃ s rs', (Sys.new false).runF K ops = .ok (s, rs') ∧ Spec.returned ops rs' = rs ∧ s.roots = s0.roots ∧
      s.tries.length = (Spec.run (Spec.calls ops)).maps.length ∧
      ∀ (i : Nat) (tr : Trie) (m : Spec.Map), s.tries[i]? = some tr → (Spec.run (Spec.calls ops)).maps[i]? = some m → ∀ k, tr.get s.db k = .ok (m k)) ∨
    ∃ pre s1 s2 r1 r2, pre <+: ops ∧ (Sys.new false).runF K pre = .ok (s1, r1) ∧ (Sys.new false).run K (Spec.calls pre) = .ok (s2, r2) ∧
      Spec.Collision K (s1.db.log ++ s2.db.log) := by
  rcases (Alikes.new (K := K)).total hfit hrun (fun a ha => by cases ha) with ⟨s, rs', h1, h2, h3⟩ | ⟨pre, s1, s2, r1, r2, h1, h2, h3, h4⟩
  · rcases collision_or K (s.db.log ++ s0.db.log) with hc | hc
    · exact .inr ⟨ops, s, s0, rs', rs, List.prefix_refl _, h1, hrun, hc⟩
    · exact .inl ⟨s, rs', h1, h2, h3.roots, h3.inv.tries.1, fun i tr m ht hm k => Trie.get_ok (h3.inv.db.reads hc.left) (h3.inv.tries.2 i tr m ht hm) k⟩
  · exact .inr ⟨pre, s1, s2, r1, r2, h1, h2, h3, not_noClash h4⟩

theorem runF_new {light : Bool} {ops : List FOp} {s : Sys} {rs : List Ret}
    (h : ({ Sys.new light with tries := [Trie.new K] } : Sys).runF K ops = .ok (s, rs)) :
    (Sys.new light).runF K (.call .new :: ops) = .ok (s, .done :: rs) := Sys.runF_of (s1 := { Sys.new light with tries := [Trie.new K] }) rfl h

/-- The twins of a program with failing commits. -/
theorem twinF {ops : List FOp} (hfit : ∀ op ∈ Spec.calls ops, Spec.Fits op) (hg : Spec.GentleFrom (Spec.run [.new]) (Spec.calls ops)) {s0 : Sys}
    {rs : List Ret} (hrun : (Sys.new false).run K (.new :: Spec.calls ops) = .ok (s0, rs)) :
    (∃ sl sa rs', (Sys.new true).runF K (.call .new :: ops) = .ok (sl, rs') ∧ (Sys.new false).runF K (.call .new :: ops) = .ok (sa, rs') ∧
      Spec.returned (.call .new :: ops) rs' = rs ∧ sa.roots = s0.roots ∧ NoClash K sa.db.log ∧
      Twin K False sl sa (Spec.run (.new :: Spec.calls ops))) ∨
    ∃ pre s1 s2 r1 r2, pre <+: FOp.call .new :: ops ∧ (Sys.new false).runF K pre = .ok (s1, r1) ∧
      (Sys.new false).run K (Spec.calls pre) = .ok (s2, r2) ∧ Spec.Collision K (s1.db.log ++ s2.db.log) := by
  have hfit' : ∀ op ∈ Spec.calls (.call .new :: ops), Spec.Fits op := by
    intro op hop
    rcases List.mem_cons.1 hop with rfl | hop
    · trivial
    · exact hfit op hop
  rcases (Alikes.new (K := K)).total (ops := .call .new :: ops) hfit' hrun (fun a ha => by cases ha) with
    ⟨s, rs', h1, h2, h3⟩ | ⟨pre, s1, s2, r1, r2, h1, h2, h3, h4⟩
  · rcases collision_or K (s.db.log ++ s0.db.log) with hc | hc
    · exact .inr ⟨_, s, s0, rs', rs, List.prefix_refl _, h1, hrun, hc⟩
    · obtain ⟨s1, r, rs1, e1, e2, rfl⟩ := Sys.runF_cons h1
      cases e1
      obtain ⟨sl, e3, g⟩ := (Twin.new (P := False)).runF hfit hg e2 hc.left
      exact .inl ⟨sl, s, .done :: rs1, runF_new e3, h1, h2, h3.roots, hc.left, g⟩
  · exact .inr ⟨pre, s1, s2, r1, r2, h1, h2, h3, not_noClash h4⟩

/-- **C77 (partial).** The same on a pruning database for one trie, if removals and successful commits are as in C41 (present keys that are a proper prefix of
no present key or at which other entries part; a map that does not go on in the same way at two places): with failing commits, the calls return what they return without them and on an archive database, and every key
gives the value of the map the trie stands for. Missing: other programs, for which C41 is false, and views: after a commit that failed while removing nodes,
the last root that was returned may no longer be readable (`C77_last_root_lost`). -/
theorem C77_pruning_partial {ops : List FOp} (hfit : ∀ op ∈ Spec.calls ops, Spec.Fits op)
    (hg : Spec.GentleFrom (Spec.run [.new]) (Spec.calls ops)) {s0 : Sys} {rs : List Ret}
    (hrun : (Sys.new false).run K (.new :: Spec.calls ops) = .ok (s0, rs)) :
    (∃ s rs' tr m, (Sys.new true).runF K (.call .new :: ops) = .ok (s, rs') ∧ Spec.returned (.call .new :: ops) rs' = rs ∧ s.roots = s0.roots ∧
      s.tries = [tr] ∧ (Spec.run (.new :: Spec.calls ops)).maps = [m] ∧ ∀ k, tr.get s.db k = .ok (m k)) ∨
    ∃ pre s1 s2 r1 r2, pre <+: FOp.call .new :: ops ∧ (Sys.new false).runF K pre = .ok (s1, r1) ∧
      (Sys.new false).run K (Spec.calls pre) = .ok (s2, r2) ∧ Spec.Collision K (s1.db.log ++ s2.db.log) := by
  rcases twinF hfit hg hrun with ⟨sl, sa, rs', h1, -, h2, h3, -, h4⟩ | h
  · obtain ⟨tr, m, g1, g2, g3⟩ := h4.one
    exact .inl ⟨sl, rs', tr, m, h1, h2, by rw [h4.roots, h3], by rw [h4.tries, g1], g2, fun k => g3.get k⟩
  · exact .inr h

/-- **C77 (partial).** In such a program on a pruning database, whatever a trie handle (for example a view of any root) can read before a commit that fails
while writing nodes, it reads afterwards; or else two different stored byte strings have the same hash. -/
theorem C77_insert_failure_partial {ops : List FOp} (hfit : ∀ op ∈ Spec.calls ops, Spec.Fits op)
    (hg : Spec.GentleFrom (Spec.run [.new]) (Spec.calls ops)) {s0 : Sys} {rs : List Ret}
    (hrun : (Sys.new false).run K (.new :: Spec.calls ops) = .ok (s0, rs)) (done : H256 → Bool) :
    (∃ s rs' s' r, (Sys.new true).runF K (.call .new :: ops) = .ok (s, rs') ∧ s.stepF K (.fail 0 (.inserting done)) = .ok (s', r) ∧
      (Spec.Collision K s'.db.log ∨ ∀ (view : Trie) k v, view.get s.db k = .ok v → view.get s'.db k = .ok v)) ∨
    ∃ pre s1 s2 r1 r2, pre <+: FOp.call .new :: ops ∧ (Sys.new false).runF K pre = .ok (s1, r1) ∧
      (Sys.new false).run K (Spec.calls pre) = .ok (s2, r2) ∧ Spec.Collision K (s1.db.log ++ s2.db.log) := by
  rcases twinF hfit hg hrun with ⟨sl, sa, rs', h1, -, h2, h3, hc, h4⟩ | h
  · obtain ⟨tr, m, g1, g2, g3⟩ := h4.one
    have ht : sa.tries[0]? = some tr := by rw [g1]; rfl
    have hl : sl.tries[0]? = some tr := by rw [h4.tries]; exact ht
    have g := h4.inv.tries.2 0 tr m ht (by rw [g2]; rfl)
    obtain ⟨tr1, t, w, hw, -⟩ := Trie.writeRoot_ok g
    refine .inl ⟨sl, rs', ⟨sl.db.insertBatch (tr1.cache.filter (fun e => done e.1)), sl.tries.set 0 { tr1 with cache := [] }, sl.roots⟩, .failed "database error", h1, ?_, ?_⟩
    · simp only [Sys.stepF, hl, Trie.failCommit, w, Res.ok_bind]
      rfl
    · rcases collision_or K (sl.db.insertBatch (tr1.cache.filter (fun e => done e.1))).log with hc | hc
      · exact .inl hc
      · exact .inr fun view k v hv => Trie.get_within (Sys.runF_nodup h1 (new_nodup true)) (h4.holed.within (EntryOk.filter hw _) hc) hv
  · exact .inr h

/-! ### Examples -/

/-- The state after a program with failing commits. -/
def resultF (light : Bool) (ops : List FOp) : Sys × List Ret := ((Sys.new light).runF exK ops).toOption.getD (Sys.new light, [])

/-- The program of C41 with commits that fail: halfway through the nodes to be written, halfway through those to be removed. -/
def failOps : List FOp :=
  [.call (.insert 0 [0x12, 0x34] (long 1)), .call (.insert 0 [0x12, 0x44] (long 2)), .call (.insert 0 [0x22, 0x34] (long 3)),
   .fail 0 (.inserting (fun h => h.bytes.head?.getD 0 < 100)), .call (.commit 0), .call (.remove 0 [0x12, 0x44]),
   .call (.insert 0 [0x22, 0x34] (long 4)), .call (.proof 0 [0x12, 0x34]), .fail 0 (.removing (fun h => h.bytes.head?.getD 0 < 100)),
   .fail 0 (.inserting (fun _ => false)), .call (.commit 0)]

theorem failOps_calls : Spec.calls failOps = pruneOps := rfl

theorem pruneOps_fits : ∀ op ∈ pruneOps, Spec.Fits op := by
  intro op hop
  simp only [pruneOps, List.mem_cons, List.not_mem_nil, or_false] at hop
  rcases hop with rfl | rfl | rfl | rfl | rfl | rfl | rfl | rfl <;> simp [Spec.Fits, long]

/-- The two commits and the proof return the same as without the failing commits, on both databases. -/
example : Spec.GentleFrom (Spec.run [.new]) (Spec.calls failOps) ∧ (∀ op ∈ Spec.calls failOps, Spec.Fits op) ∧
    ((Sys.new false).run exK (.new :: Spec.calls failOps)).toOption.isSome = true ∧
    (resultF true (.call .new :: failOps)).1.roots = (result false (.new :: pruneOps)).1.roots ∧
    (resultF false (.call .new :: failOps)).1.roots = (result false (.new :: pruneOps)).1.roots ∧
    (result false (.new :: pruneOps)).1.roots.length = 2 ∧
    ¬ Spec.Collision exK ((resultF false (.call .new :: failOps)).1.db.log ++ (result false (.new :: pruneOps)).1.db.log) :=
  ⟨pruneOps_gentle, pruneOps_fits, by decide +kernel, by decide +kernel, by decide +kernel, by decide +kernel, by decide +kernel⟩

/-- Two keys are committed, one is changed, and the commit of the change fails after the old nodes have been removed. -/
def lostOps : List FOp :=
  [.call .new, .call (.insert 0 [0x12, 0x34] (long 1)), .call (.insert 0 [0x22, 0x34] (long 2)), .call (.commit 0),
   .call (.insert 0 [0x12, 0x34] (long 3)), .fail 0 (.removing (fun _ => true))]

/-- **C77 is false for views on a pruning database**: after a commit that failed while removing nodes, the root hash returned by the last successful commit
no longer gives the key that had been committed under it; while before the failing commit it did. The root hash of the nodes that were written has not
been returned. -/
theorem C77_last_root_lost :
    (resultF true lostOps).1.roots.length = 1 ∧
    ((resultF true lostOps).1.roots.map (fun h => ((Trie.atRoot h).get (resultF true lostOps).1.db [0x12, 0x34]).toOption)) = [none] ∧
    ((resultF true lostOps).1.roots.map (fun h => ((Trie.atRoot h).get (resultF true (lostOps.take 5)).1.db [0x12, 0x34]).toOption))
      = [some (some (long 1))] := ⟨by decide +kernel, by decide +kernel, by decide +kernel⟩

end Verif.Props
