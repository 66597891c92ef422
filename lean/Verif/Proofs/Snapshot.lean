import Verif.Proofs.Interrupt
import Verif.Spec.Snapshot
/-! Readers that hold one version: they all give the same answers about it. -/

set_option autoImplicit false

namespace Verif.Jmt
variable {D : Type}
open Classical VTree Spec

/-- The reader that holds the tree `t` of version `v` with the contents `f`, and nothing else. -/
noncomputable def core (H : Hasher D) (t : VTree D) (v : Version) (f : Key → Option Value) : Reader D :=
  ⟨fun nk => if nk = ⟨v, []⟩ then some (t.toNode H) else t.at? H nk.version nk.path,
   fun w k => if w = v ∨ ∃ q l, t.at? H w q = some (.leaf l) ∧ l.keyHash = k then f k else none⟩

/-- `r` holds version `v`. -/
structure HoldsAt (H : Hasher D) (r : Reader D) (v : Version) (f : Key → Option Value) (t : VTree D) : Prop where
  root : r.getNodeOption ⟨v, []⟩ = some (t.toNode H)
  value : ∀ k, r.getValueOption v k = f k
  good : Good H r f [] t

theorem HoldsAt.below {H : Hasher D} {r : Reader D} {v : Version} {f : Key → Option Value} {t : VTree D} (h : HoldsAt H r v f t) :
    Below (core H t v f) r := by
  constructor
  · intro nk n hn
    simp only [core] at hn
    split at hn
    · rename_i he; subst he; cases hn; exact h.root
    · have := h.good.has nk.version nk.path n hn
      simpa using this
  · intro w k x hx
    simp only [core] at hx
    split at hx
    · rename_i hc
      rcases hc with rfl | ⟨q, l, h1, rfl⟩
      · rw [h.value]; exact hx
      · rw [(h.good.value w q l h1).1]; exact hx
    · cases hx

/-- What is needed of a tree for its core to hold it. -/
structure Sound (H : Hasher D) (v : Version) (f : Key → Option Value) (t : VTree D) : Prop where
  hold : Holding H t f
  ver : t ≠ .empty → t.version = v

theorem Sound.some {H : Hasher D} {v : Version} {f : Key → Option Value} {t : VTree D} (h : Sound H v f t) {k : Key} {x : D}
    (hm : (k, x) ∈ t.entries) : (f k).isSome = true := by
  have := (h.hold.2 k x).1 hm
  cases hx : f k with
  | none => rw [hx] at this; cases this
  | some _ => rfl

theorem Sound.core {H : Hasher D} {v : Version} {f : Key → Option Value} {t : VTree D} (h : Sound H v f t) : HoldsAt H (core H t v f) v f t := by
  refine ⟨by simp [Jmt.core], fun k => by simp [Jmt.core], h.hold.1, ?_, ?_⟩
  · intro w q n hn
    simp only [Jmt.core, List.nil_append]
    split
    · rename_i he
      cases he
      have hne : t ≠ .empty := by rintro rfl; simp at hn
      rw [at?_nil H hne, if_pos (h.ver hne).symm] at hn
      exact hn
    · exact hn
  · intro w q l hl
    refine ⟨?_, h.some (mem_entries_of_at? hl)⟩
    simp only [Jmt.core]
    exact if_pos (.inr ⟨q, l, hl, rfl⟩)

theorem OrErr.ok {α : Type} {x y : Res α} {a : α} (h : OrErr x y) (hx : x = .ok a) : y = .ok a := by
  rcases h with h | ⟨m, h⟩
  · rw [← h]; exact hx
  · rw [h] at hx; cases hx

/-! reads -/

section
variable {H : Hasher D} {v : Version} {f : Key → Option Value} {t : VTree D}

theorem Sound.getWithProof (h : Sound H v f t) {r : Reader D} (hr : HoldsAt H r v f t) (k : Key) :
    Tree.getWithProof H r k v = .ok (f k, proofOf (smtPath H k 256 t.entries)) :=
  getWithProof_spec H r k v f (hr.value k) t h.hold.1 hr.root h.ver hr.good.has (h.hold.2 k)

theorem Sound.getRootHash {r : Reader D} (hr : HoldsAt H r v f t) : Tree.getRootHash H r v = .ok (t.hash H) := by
  unfold Tree.getRootHash Tree.getRootNode NodeKey.newEmptyPath
  rw [hr.root]
  simp [bind, Except.bind, toNode_hash]

/-! iterators -/

theorem HoldsAt.next_eq {r : Reader D} (hr : HoldsAt H r v f t) {it it' : Iter D} {o : Option (Key × Value)}
    (h : it.next (Jmt.core H t v f) = .ok (o.map .ok, it')) : it.next r = .ok (o.map .ok, it') := by
  rcases hr.below.next it with e | ⟨m, it', e⟩
  · rw [← e]; exact h
  · rw [e] at h
    cases o <;> cases h

theorem Sound.yields (h : Sound H v f t) (E : List (Key × D)) (it : Iter D) (hi : ItOk H (Jmt.core H t v f) f v t it E) :
    YieldsAll (fun r => HoldsAt H r v f t) it (E.filterMap (fun e => (f e.1).map (fun x => (e.1, x)))) := by
  induction E generalizing it with
  | nil => exact .stop (fun r hr => hr.next_eq (o := none) (next_nil h.core.root hi rfl))
  | cons e E ih =>
    obtain ⟨x, it', e1, e2, e3⟩ := next_cons h.core.root h.core.value (fun _ _ => h.some) hi rfl
    rw [List.filterMap_cons_some (by rw [e1]; rfl)]
    exact .step (fun r hr => hr.next_eq (o := Option.some _) e2) (ih it' e3)

theorem Sound.newIter (h : Sound H v f t) (k : Key) : ∃ it, (∀ r, HoldsAt H r v f t → Iter.new r v k = .ok it) ∧
    YieldsAll (fun r => HoldsAt H r v f t) it ((geq k t.entries).filterMap (fun e => (f e.1).map (fun x => (e.1, x)))) := by
  obtain ⟨it, e1, e2⟩ := new_spec k h.core.good h.core.root h.ver
  exact ⟨it, fun r hr => (hr.below.newIter v k).ok e1, h.yields _ it e2⟩

theorem Sound.newByIndex (h : Sound H v f t) (i : Nat) : ∃ it, (∀ r, HoldsAt H r v f t → Iter.newByIndex r v i = .ok it) ∧
    YieldsAll (fun r => HoldsAt H r v f t) it ((t.entries.drop i).filterMap (fun e => (f e.1).map (fun x => (e.1, x)))) := by
  obtain ⟨it, e1, e2⟩ := newByIndex_spec i h.core.good h.core.root h.ver
  exact ⟨it, fun r hr => (hr.below.newByIndex v i).ok e1, h.yields _ it e2⟩

end

theorem _root_.Verif.Spec.YieldsAll.mono {P Q : Reader D → Prop} (hPQ : ∀ r, Q r → P r) {it : Iter D} {l : List (Key × Value)} (hy : YieldsAll P it l) :
    YieldsAll Q it l := by
  induction hy with
  | stop h => exact .stop (fun r hr => h r (hPQ r hr))
  | step h _ ih => exact .step (fun r hr => h r (hPQ r hr)) ih

end Verif.Jmt
