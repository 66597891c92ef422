import Verif.Jmt.Calls
import Verif.Proofs.RenameBatch
import Verif.Proofs.Run
/-! The two kinds of calls that compute new versions, taken together. -/

set_option autoImplicit false

namespace Verif.Jmt
variable {D : Type}

namespace UpdateCall

/-- The versions a call commits. -/
def commits : UpdateCall → List Commit
  | .put m sets => sets.map (.seq m)
  | .batch m sets => sets.map (.batch m)

/-- The loop of a call. -/
def loop (H : Hasher D) (v : Version) (c : TreeCache D) : UpdateCall → Res (TreeCache D)
  | .put m sets => Tree.putSets H m v sets c
  | .batch m sets => Tree.batchPutSets H m v (sets.zip (sets.map (fun _ => none))) c

/-- No version of `batch_put_value_sets` is without updates. -/
def Filled (c : UpdateCall) : Prop := ∀ m sets, c = .batch m sets → [] ∉ sets

theorem commits_updates (c : UpdateCall) : c.commits.map Commit.updates = c.sets := by
  cases c with
  | put m sets =>
    show (sets.map (Commit.seq m)).map Commit.updates = sets
    rw [List.map_map]
    have : (Commit.updates ∘ Commit.seq m) = id := rfl
    rw [this, List.map_id]
  | batch m sets =>
    show (sets.map (Commit.batch m)).map Commit.updates = sets.map _
    rw [List.map_map]
    rfl

theorem commits_length (c : UpdateCall) : c.commits.length = c.sets.length := by rw [← commits_updates, List.length_map]

theorem run_loop (H : Hasher D) (r : Reader D) (v : Version) (c : UpdateCall) :
    c.run H r v = (do let x ← c.loop H v (TreeCache.new r v); pure x.into) := by
  cases c with
  | put m sets => rfl
  | batch m sets =>
    simp only [run, loop, Tree.batchPutValueSets]
    cases Tree.batchPutSets H m v (sets.zip (sets.map (fun _ => none))) (TreeCache.new r v) with
    | error e => rfl
    | ok x => simp

/-- A call on a store with a history. -/
theorem resume {H : Hasher D} {v0 lo : Version} {hist : List Commit} {s : Store D} (h : StoreInv H v0 hist lo s) (hne : hist ≠ []) (c : UpdateCall)
    (hf : c.Filled) : ∃ roots b, c.run H s.reader (v0 + hist.length) = .ok (roots, b) ∧ BatchSpec H v0 hist c.commits lo s roots b := by
  cases c with
  | put m sets => exact putValueSets_resume h m sets ⟨fun e => absurd e hne, by simp⟩
  | batch m sets =>
    obtain ⟨roots, b, e1, e2, _⟩ := batchPutValueSets_resume h m sets ⟨fun e => absurd e hne, by
      intro m' s hs he
      obtain ⟨x, hx, hx'⟩ := List.mem_map.1 hs
      cases hx'
      exact hf m sets rfl (he ▸ hx)⟩
    exact ⟨roots, b, e1, e2⟩

end UpdateCall

/-- The loop of a call under renaming, when the versions do not matter to `freeze`. -/
theorem Sim.loop {ρ : Version → Version} {pre : List D} {ps : List NodeStats} {pv : Version → Key → Option (Option Value)} {c c' : TreeCache D}
    (hρ : Function.Injective ρ) (H : Hasher D) (x : UpdateCall) (ver : Version) (h : Sim ρ pre ps pv c c') (hver : c.nextVersion = ver)
    (hr : c.rootNodeKey.path = []) (hs : ∀ v, ver ≤ v → v < ver + x.sets.length → ρ (v + 1) = ρ v + 1)
    (hv : ∀ v, ver ≤ v → v < ver + x.sets.length → (0 < v ↔ 0 < ρ v)) : ResRel (Sim ρ pre ps pv) (x.loop H ver c) (x.loop H (ρ ver) c') := by
  cases x with
  | put m sets => exact h.putSets hρ H m ver sets hver hr hs hv
  | batch m sets =>
    refine h.batchPutSets hρ H m ver _ hver (fun v h1 h2 => hs v h1 ?_)
    simp only [List.length_zip, List.length_map, Nat.min_self] at h2
    simpa [UpdateCall.sets] using h2

end Verif.Jmt
