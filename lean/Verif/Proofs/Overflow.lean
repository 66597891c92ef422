import Verif.Jmt.Overflow
import Verif.Proofs.RenameBatch
import Verif.Proofs.Frame
/-! The machine's version arithmetic against the unbounded one. -/

set_option autoImplicit false

namespace Verif.Jmt
variable {D : Type}

/-- The versions up to (not including) `n` are all there are to count, for a call that ends there. -/
def Build.Fits : Build → Nat → Prop
  | .checked, n => n < u64Size
  | .wrapping, n => n ≤ u64Size

theorem Build.Fits.le {b : Build} {n : Nat} (h : b.Fits n) : n ≤ u64Size := by
  cases b
  · exact Nat.le_of_lt h
  · exact h

theorem Build.Fits.mono {b : Build} {n m : Nat} (h : b.Fits n) (hm : m ≤ n) : b.Fits m := by
  cases b
  · exact Nat.lt_of_le_of_lt hm h
  · exact Nat.le_trans hm h

theorem Build.sum_lt (b : Build) {x : Nat} (h : x < u64Size) : b.sum x = .ok x := by simp [Build.sum, h]

theorem Build.sum_checked {x : Nat} (h : u64Size ≤ x) : Build.checked.sum x = .error (.panic "attempt to add with overflow") := by
  simp [Build.sum, Nat.not_lt.2 h]

/-- `freeze` counts the version on. -/
theorem freeze_next {H : Hasher D} {c c' : TreeCache D} (h : c.freeze H = .ok c') : c'.nextVersion = c.nextVersion + 1 := by
  have hput : ∀ {c : TreeCache D} {nk n c1}, c.putNode nk n = .ok c1 → c1.nextVersion = c.nextVersion := by
    intro c nk n c1 h
    unfold TreeCache.putNode at h
    split at h
    · cases h
    · cases h; rfl
  unfold TreeCache.freeze at h
  obtain ⟨⟨c1, n⟩, h1, h⟩ := Res.bind_ok h
  obtain ⟨c2, h2, h⟩ := Res.bind_ok h
  cases h
  have e1 : c1.nextVersion = c.nextVersion := by
    unfold TreeCache.freezeRoot at h1
    split at h1
    · cases h1; rfl
    · obtain ⟨c3, h3, h1⟩ := Res.bind_ok h1
      cases h1
      exact hput h3
  have e2 : c2.nextVersion = c1.nextVersion := by
    unfold TreeCache.freezeCopy at h2
    split at h2
    · obtain ⟨n, _, h2⟩ := Res.bind_ok h2
      exact (hput h2).trans rfl
    · cases h2; rfl
  show c2.nextVersion + 1 = _
  rw [e2, e1]

theorem freeze64_eq (b : Build) (H : Hasher D) (c : TreeCache D) :
    c.freeze64 b H = (c.freeze H >>= fun c' => b.sum c'.nextVersion >>= fun n => .ok { c' with nextVersion := n }) := rfl

/-- While there is a next version, `freeze` is as in the unbounded model. -/
theorem freeze64_lt (b : Build) (H : Hasher D) {c : TreeCache D} (h : c.nextVersion + 1 < u64Size) : c.freeze64 b H = c.freeze H := by
  rw [freeze64_eq]
  cases e : c.freeze H with
  | error x => rfl
  | ok c' =>
    simp only [Res.ok_bind, freeze_next e, b.sum_lt h]
    rw [← freeze_next e]

/-- With checks, `freeze` of the last version panics unless it fails. -/
theorem freeze64_last (H : Hasher D) {c : TreeCache D} (h : c.nextVersion + 1 = u64Size) :
    c.freeze64 .checked H = (c.freeze H >>= fun _ => .error (.panic "attempt to add with overflow")) := by
  rw [freeze64_eq]
  cases e : c.freeze H with
  | error x => rfl
  | ok c' => simp only [Res.ok_bind, freeze_next e, Build.sum_checked (Nat.le_of_eq h.symm), Res.error_bind]

/-- Without checks, `freeze` of the last version is as in the unbounded model, but for the next version. -/
theorem freeze64_wrap (H : Hasher D) {c : TreeCache D} (h : c.nextVersion + 1 = u64Size) :
    c.freeze64 .wrapping H = (c.freeze H >>= fun c' => .ok { c' with nextVersion := 0 }) := by
  rw [freeze64_eq]
  cases e : c.freeze H with
  | error x => rfl
  | ok c' => simp only [Res.ok_bind, freeze_next e, h, Build.sum, Nat.lt_irrefl, if_false, Nat.mod_self]

theorem bind_assoc_res {α β γ : Type} (x : Res α) (f : α → Res β) (g : β → Res γ) : (x >>= f) >>= g = (x >>= fun a => f a >>= g) := by
  cases x <;> rfl

theorem bind_congr_ok {α β : Type} {x : Res α} {f g : α → Res β} (h : ∀ a, x = .ok a → f a = g a) : (x >>= f) = (x >>= g) := by
  cases x with
  | error e => rfl
  | ok a => exact h a rfl

/-- A last round without checks. -/
theorem freeze64_into (H : Hasher D) {c : TreeCache D} (h : c.nextVersion + 1 = u64Size) :
    (c.freeze64 .wrapping H >>= fun c => (.ok c.into : Res _)) = (c.freeze H >>= fun c => .ok c.into) := by
  rw [freeze64_wrap H h, bind_assoc_res]
  rfl

/-- The end of a call: a round that is either followed by others within the range, or is the last one. -/
theorem round_fits {b : Build} (H : Hasher D) {c : TreeCache D} {n : Nat} (h : b.Fits (c.nextVersion + (n + 1)))
    {f f64 : TreeCache D → Res (TreeCache D)} (h0 : n = 0 → f = .ok ∧ f64 = .ok)
    (hf : ∀ a, c.freeze H = .ok a → (f64 a >>= fun c => (.ok c.into : Res _)) = (f a >>= fun c => .ok c.into)) :
    ((c.freeze64 b H >>= f64) >>= fun c => (.ok c.into : Res _)) = ((c.freeze H >>= f) >>= fun c => .ok c.into) := by
  rw [bind_assoc_res, bind_assoc_res]
  by_cases hlt : c.nextVersion + 1 < u64Size
  · rw [freeze64_lt b H hlt]
    exact bind_congr_ok hf
  · have hle := h.le
    have hn : n = 0 := by omega
    obtain ⟨rfl, rfl⟩ := h0 hn
    have hb : b = .wrapping := by
      cases b with
      | wrapping => rfl
      | checked => exact absurd (show c.nextVersion + 1 < u64Size by subst hn; exact h) hlt
    subst hb
    exact freeze64_into H (by omega)

theorem putSets64_fits (b : Build) (H : Hasher D) (m : Bool) (first : Version) (sets : List Tree.ValueSet) (idx : Nat) (c : TreeCache D)
    (hn : c.nextVersion = first + idx) (hr : c.rootNodeKey.path = []) (h : b.Fits (first + idx + sets.length)) :
    (Tree.putSets64 b H m first idx sets c >>= fun c => (.ok c.into : Res _)) =
      (Tree.putSets H m (first + idx) sets c >>= fun c => .ok c.into) := by
  induction sets generalizing idx c with
  | nil => rfl
  | cons s t ih =>
    have hle := h.le
    simp only [List.length_cons] at h hle
    unfold Tree.putSets64 Tree.putSets
    rw [b.sum_lt (by omega)]
    simp only [Res.ok_bind]
    rw [bind_assoc_res, bind_assoc_res]
    refine bind_congr_ok (fun a ha => ?_)
    obtain ⟨a1, a2⟩ := Sim.putSet_next s hr ha
    refine round_fits H (n := t.length) (by rw [a1, hn]; exact h) ?_ ?_
    · intro h0
      have : t = [] := List.length_eq_zero_iff.1 h0
      subst this
      exact ⟨rfl, rfl⟩
    · intro c' hc'
      exact ih (idx + 1) c' (by rw [freeze_next hc', a1, hn]; omega) (by rw [freeze_root hc']; exact a2) (by
        have : first + (idx + 1) + t.length = first + idx + (t.length + 1) := by omega
        rw [this]; exact h)

/-- With checks, a call that does not end before the last version fails: where the sets up to that version succeed, it panics. -/
theorem putSets64_checked (H : Hasher D) (m : Bool) (first : Version) (sets : List Tree.ValueSet) (idx : Nat) (c : TreeCache D)
    (hn : c.nextVersion = first + idx) (hr : c.rootNodeKey.path = []) (h : first + idx < u64Size) (hl : u64Size ≤ first + idx + sets.length) :
    Tree.putSets64 .checked H m first idx sets c = (Tree.putSets H m (first + idx) (sets.take (u64Size - (first + idx))) c >>= fun _ =>
      .error (.panic "attempt to add with overflow")) := by
  induction sets generalizing idx c with
  | nil => simp only [List.length_nil] at hl; omega
  | cons s t ih =>
    simp only [List.length_cons] at hl
    obtain ⟨k, hk⟩ : ∃ k, u64Size - (first + idx) = k + 1 := ⟨u64Size - (first + idx) - 1, by omega⟩
    rw [hk, List.take_succ_cons]
    unfold Tree.putSets64 Tree.putSets
    rw [Build.sum_lt _ h]
    simp only [Res.ok_bind]
    rw [bind_assoc_res]
    refine bind_congr_ok (fun a ha => ?_)
    obtain ⟨a1, a2⟩ := Sim.putSet_next s hr ha
    rw [bind_assoc_res]
    by_cases hlt : first + idx + 1 < u64Size
    · rw [freeze64_lt _ H (by rw [a1, hn]; exact hlt)]
      refine bind_congr_ok (fun c' hc' => ?_)
      have := ih (idx + 1) c' (by rw [freeze_next hc', a1, hn]; omega) (by rw [freeze_root hc']; exact a2) (by omega) (by omega)
      rw [this, show u64Size - (first + (idx + 1)) = k by omega]
      rfl
    · rw [freeze64_last H (by rw [a1, hn]; omega), bind_assoc_res]
      refine bind_congr_ok (fun c' hc' => ?_)
      rw [show k = 0 by omega, List.take_zero]
      rfl

/-! ### `batch_put_value_sets` -/

/-- One round up to `freeze`. -/
def batchRound (H : Hasher D) (m : Bool) (hc : Option (Tree.HashCache D)) (ver : Version) (s : List (Key × Value)) (c : TreeCache D) :
    Res (TreeCache D) := do
  assert (!s.isEmpty) "Transactions that output empty write set should not be included."
  let kvs := Tree.sortDedup s
  let c := kvs.foldl (fun c e => c.putValue ver e.1 (some e.2)) c
  let (c, (nk, _)) ← Tree.batchInsertAt H m hc ver rootNibbleHeight c.rootNodeKey (kvs.map (fun e => (e.1, H.value e.2))) c
  .ok (c.setRootNodeKey nk)

theorem batchPutSet_round (H : Hasher D) (m : Bool) (hc : Option (Tree.HashCache D)) (ver : Version) (s : List (Key × Value)) (c : TreeCache D) :
    Tree.batchPutSet H m hc ver s c = (batchRound H m hc ver s c >>= fun c => c.freeze H) := by
  unfold Tree.batchPutSet batchRound
  rw [bind_assoc_res]
  refine bind_congr_ok (fun _ _ => ?_)
  rw [bind_assoc_res]
  rfl

theorem batchPutSet64_round (b : Build) (H : Hasher D) (m : Bool) (hc : Option (Tree.HashCache D)) (first : Version) (idx : Nat)
    (s : List (Key × Value)) (c : TreeCache D) (h : first + idx < u64Size) :
    Tree.batchPutSet64 b H m hc first idx s c = (batchRound H m hc (first + idx) s c >>= fun c => c.freeze64 b H) := by
  unfold Tree.batchPutSet64 batchRound
  rw [bind_assoc_res, b.sum_lt h]
  refine bind_congr_ok (fun _ _ => ?_)
  rw [bind_assoc_res]
  rfl

theorem batchRound_next {H : Hasher D} {m : Bool} {hc : Option (Tree.HashCache D)} {ver : Version} {s : List (Key × Value)} {c a : TreeCache D}
    (h : batchRound H m hc ver s c = .ok a) : a.nextVersion = c.nextVersion := by
  have hn : ∀ kvs : List (Key × Value), ∀ c : TreeCache D,
      (kvs.foldl (fun c e => c.putValue ver e.1 (some e.2)) c).nextVersion = c.nextVersion := by
    intro kvs
    induction kvs with
    | nil => exact fun _ => rfl
    | cons e kvs ih => exact fun c => ih _
  unfold batchRound at h
  obtain ⟨_, _, h⟩ := Res.bind_ok h
  obtain ⟨⟨c1, nk, n⟩, h1, h⟩ := Res.bind_ok h
  cases h
  exact batchInsertAt_next H m hc ver _ _ _ (hn _ c) _ h1

theorem batchPutSets64_fits (b : Build) (H : Hasher D) (m : Bool) (first : Version)
    (sets : List (List (Key × Value) × Option (Tree.HashCache D))) (idx : Nat) (c : TreeCache D)
    (hn : c.nextVersion = first + idx) (h : b.Fits (first + idx + sets.length)) :
    (Tree.batchPutSets64 b H m first idx sets c >>= fun c => (.ok c.into : Res _)) =
      (Tree.batchPutSets H m (first + idx) sets c >>= fun c => .ok c.into) := by
  induction sets generalizing idx c with
  | nil => rfl
  | cons s t ih =>
    obtain ⟨s, hc⟩ := s
    have hle := h.le
    simp only [List.length_cons] at h hle
    unfold Tree.batchPutSets64 Tree.batchPutSets
    rw [batchPutSet64_round b H m hc first idx s c (by omega), batchPutSet_round]
    simp only [bind_assoc_res]
    refine bind_congr_ok (fun a ha => ?_)
    have a1 := batchRound_next ha
    have := round_fits (b := b) H (c := a) (n := t.length) (f := Tree.batchPutSets H m (first + idx + 1) t)
      (f64 := Tree.batchPutSets64 b H m first (idx + 1) t) (by rw [a1, hn]; exact h) ?_ ?_
    · rw [bind_assoc_res, bind_assoc_res] at this
      exact this
    · intro h0
      have : t = [] := List.length_eq_zero_iff.1 h0
      subst this
      exact ⟨rfl, rfl⟩
    · intro c' hc'
      exact ih (idx + 1) c' (by rw [freeze_next hc', a1, hn]; omega) (by
        have : first + (idx + 1) + t.length = first + idx + (t.length + 1) := by omega
        rw [this]; exact h)

theorem batchPutSets64_checked (H : Hasher D) (m : Bool) (first : Version)
    (sets : List (List (Key × Value) × Option (Tree.HashCache D))) (idx : Nat) (c : TreeCache D)
    (hn : c.nextVersion = first + idx) (h : first + idx < u64Size) (hl : u64Size ≤ first + idx + sets.length) :
    Tree.batchPutSets64 .checked H m first idx sets c =
      (Tree.batchPutSets H m (first + idx) (sets.take (u64Size - (first + idx))) c >>= fun _ =>
        .error (.panic "attempt to add with overflow")) := by
  induction sets generalizing idx c with
  | nil => simp only [List.length_nil] at hl; omega
  | cons s t ih =>
    obtain ⟨s, hc⟩ := s
    simp only [List.length_cons] at hl
    obtain ⟨k, hk⟩ : ∃ k, u64Size - (first + idx) = k + 1 := ⟨u64Size - (first + idx) - 1, by omega⟩
    rw [hk, List.take_succ_cons]
    unfold Tree.batchPutSets64 Tree.batchPutSets
    rw [batchPutSet64_round _ H m hc first idx s c h, batchPutSet_round]
    simp only [bind_assoc_res]
    refine bind_congr_ok (fun a ha => ?_)
    have a1 := batchRound_next ha
    by_cases hlt : first + idx + 1 < u64Size
    · rw [freeze64_lt _ H (by rw [a1, hn]; exact hlt)]
      refine bind_congr_ok (fun c' hc' => ?_)
      have := ih (idx + 1) c' (by rw [freeze_next hc', a1, hn]; omega) (by omega) (by omega)
      rw [this, show u64Size - (first + (idx + 1)) = k by omega]
      rfl
    · rw [freeze64_last H (by rw [a1, hn]; omega), bind_assoc_res]
      refine bind_congr_ok (fun c' hc' => ?_)
      rw [show k = 0 by omega, List.take_zero]
      rfl

theorem new_next (r : Reader D) (v : Version) : (TreeCache.new r v).nextVersion = v ∧ (TreeCache.new r v).rootNodeKey.path = [] := by
  unfold TreeCache.new
  simp only
  split
  · split
    · exact ⟨rfl, rfl⟩
    · exact ⟨rfl, rfl⟩
  · exact ⟨rfl, rfl⟩

end Verif.Jmt
