import Verif.Proofs.PmtReopen
import Verif.Props.PmtFault
/-! Opening the last root again on a pruning database: C73. -/

set_option autoImplicit false

namespace Verif.Props
open Verif Verif.Pmt PmtEx

variable {K : Keccak}

/-- **C73 (partial).** A program on a pruning database opens, as often as it likes, the root hash returned by the last `commit` with `at_root`, and
goes on with the trie made last (see `Spec.Relay`: removals are of present keys that are a proper prefix of no present key or at which other
entries part, at commits the map does not go on in the same way at two places, and an opened trie is not committed with just the contents of the last commit, unless some value has 32 bytes or more). No call
panics, every call returns the same as on an archive database, and afterwards every key gives, through the trie made last, the value of the map that
the trie stands for; or else, after some of the calls on the archive database, two different stored byte strings have the same hash. Missing:
committing the same contents again through an opened trie, for which the claim is false (`C73_same_contents_panics`), the cases in which C41 fails, and
`get_proof` on an opened trie, which panics on every database (`C42_view_panics`). -/
theorem C73_reopen_partial {ops : List Op} (hfit : ∀ op ∈ ops, Spec.Fits op) (hg : Spec.RelayFrom (Spec.run [.new]) ops) :
    (∃ sl sa rs tr m, (Sys.new true).run K (.new :: ops) = .ok (sl, rs) ∧ (Sys.new false).run K (.new :: ops) = .ok (sa, rs) ∧
      Spec.AnswersFrom ⟨[], []⟩ (.new :: ops) rs ∧ sl.tries.getLast? = some tr ∧ (Spec.run (.new :: ops)).maps.getLast? = some m ∧
      ∀ k, tr.get sl.db k = .ok (m k) ∧ tr.contains sl.db k = .ok (m k).isSome) ∨
    ∃ pre s rs, pre <+: ops ∧ (Sys.new false).run K (.new :: pre) = .ok (s, rs) ∧ Spec.Collision K s.db.log := by
  have hrun : ∀ (light : Bool) (ops : List Op) (s : Sys) (rs : List Ret), ({ Sys.new light with tries := [Trie.new K] } : Sys).run K ops = .ok (s, rs) →
      (Sys.new light).run K (.new :: ops) = .ok (s, .done :: rs) := by
    intro light ops s rs h
    have e : (Sys.new light).step K .new = .ok ({ Sys.new light with tries := [Trie.new K] }, .done) := rfl
    unfold Sys.run
    rw [e]
    simp only [h]
  rcases (Relays.new (K := K)).total hfit hg (fun a ha => by cases ha) with ⟨sl, sa, rs, h1, h2, h3, h4⟩ | ⟨pre, s, rs, h1, h2, h3⟩
  · obtain ⟨i, tr, m, g0, g1, g2, g3⟩ := h3.one
    have hlen := h3.inv.tries.1
    refine .inl ⟨sl, sa, .done :: rs, tr, m, hrun _ _ _ _ h1, hrun _ _ _ _ h2, ⟨.done, rs, rfl, rfl, h4⟩, ?_, ?_, fun k => ⟨g3.get k, ?_⟩⟩
    · rw [List.getLast?_eq_getElem?, h3.tries, hlen, ← g0, Nat.add_sub_cancel, g1]
    · show (List.foldl Spec.step _ ops).maps.getLast? = _
      rw [List.getLast?_eq_getElem?]
      refine Eq.trans ?_ g2
      congr 1
      rw [← Nat.add_sub_cancel (n := i) (m := 1), g0]
      rfl
    · have := g3.get k
      unfold Trie.get at this
      unfold Trie.contains
      rw [this]
      rfl
  · exact .inr ⟨pre, s, .done :: rs, h1, hrun _ _ _ _ h2, not_noClash h3⟩

/-- Two short entries and a long one, a commit; the root is opened, one entry is removed and one is changed, and this is committed; the new root is
opened, an entry is added, and this is committed. -/
def reopenOps : List Op :=
  [.insert 0 [0x12, 0x34] (long 1), .insert 0 [0x12, 0x44] [2], .insert 0 [0x22, 0x34] [3], .commit 0, .openAt 0, .remove 1 [0x12, 0x44],
   .insert 1 [0x22, 0x34] [4], .commit 1, .openAt 1, .insert 2 [0x99] [5], .commit 2]

theorem reopenOps_relay : Spec.RelayFrom (Spec.run [.new]) reopenOps := by
  refine ⟨rfl, rfl, rfl, ⟨rfl, ?_⟩, rfl, ⟨rfl, ?_⟩, rfl, ⟨rfl, ?_⟩, rfl, rfl, ⟨rfl, ?_⟩, trivial⟩
  · intro m hm
    cases hm
    refine ⟨noTwins_of_distinct fun a b ha hab => ?_, .inl rfl⟩
    revert ha hab
    simp only [long_ne, if_false, Spec.Map.set, reduceCtorEq]
    split_ifs <;> simp_all [long]
  · intro m hm
    cases hm
    refine ⟨rfl, .inr (.inl ?_)⟩
    rintro k ⟨x, hx, rfl⟩
    simp [Spec.Map.set, long, hx]
  · intro m hm
    cases hm
    refine ⟨noTwins_of_distinct fun a b ha hab => ?_, .inr (.inr ⟨[0x12, 0x34], long 1, by decide, by decide⟩)⟩
    revert ha hab
    simp only [long_ne, if_false, Spec.Map.set, reduceCtorEq]
    split_ifs <;> simp_all [long]
  · intro m hm
    cases hm
    refine ⟨noTwins_of_distinct fun a b ha hab => ?_, .inr (.inr ⟨[0x12, 0x34], long 1, by decide, by decide⟩)⟩
    revert ha hab
    simp only [long_ne, if_false, Spec.Map.set, reduceCtorEq]
    split_ifs <;> simp_all [long]

/-- The hypotheses are met, and the database has fewer entries than an archive database. -/
example : Spec.RelayFrom (Spec.run [.new]) reopenOps ∧ (∀ op ∈ reopenOps, Spec.Fits op) ∧
    (handle true (.new :: reopenOps) 2).get (result true (.new :: reopenOps)).1.db [0x22, 0x34] = .ok (some [4]) ∧
    ¬ Spec.Collision exK (result false (.new :: reopenOps)).1.db.log ∧
    0 < ((result false (.new :: reopenOps)).1.db.len - (result true (.new :: reopenOps)).1.db.len) := by
  refine ⟨reopenOps_relay, ?_, ?_, by decide +kernel, by decide +kernel⟩
  · intro op hop
    simp only [reopenOps, List.mem_cons, List.not_mem_nil, or_false] at hop
    rcases hop with rfl | rfl | rfl | rfl | rfl | rfl | rfl | rfl | rfl | rfl | rfl <;> simp [Spec.Fits, long]
  · have h : ((handle true (.new :: reopenOps) 2).get (result true (.new :: reopenOps)).1.db [0x22, 0x34]).toOption = some (some [4]) := by
      decide +kernel
    generalize (handle true (.new :: reopenOps) 2).get (result true (.new :: reopenOps)).1.db [0x22, 0x34] = x at *
    cases x with
    | error => cases h
    | ok => cases h; rfl

/-- One entry, a commit; the root is opened, the entry is put in again, and this is committed. -/
def reopenSame : List Op := [.new, .insert 0 [0x12] [1], .commit 0, .openAt 0, .insert 1 [0x12] [1], .commit 1]

/-- The message of a panic. -/
def panicOf {α : Type} : Res α → Option String
  | .error (.panic m) => some m
  | _ => none

/-- **C73 is false**: `commit` of a trie that was opened at the last root, and given an entry that it has already, panics on a pruning database. On an
archive database it gives the same root again. -/
theorem C73_same_contents_panics :
    panicOf ((Sys.new true).run exK reopenSame) = some "The root that was just created is missing" ∧
    ((Sys.new false).run exK reopenSame).toOption.isSome = true ∧
    (result false reopenSame).1.roots[0]? = (result false reopenSame).1.roots[1]? ∧
    ¬ Spec.Collision exK (result false reopenSame).1.db.log :=
  ⟨by decide +kernel, by decide +kernel, by decide +kernel, by decide +kernel⟩

/-- **C73 is false** also for a removal that finds nothing. -/
theorem C73_absent_removal_panics :
    panicOf ((Sys.new true).run exK [.new, .insert 0 [0x12] [1], .commit 0, .openAt 0, .remove 1 [0x13], .commit 1])
      = some "The root that was just created is missing" := by
  decide +kernel

end Verif.Props
