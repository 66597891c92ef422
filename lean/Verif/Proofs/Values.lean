import Verif.Jmt.Db
import Verif.Proofs.Reads
/-! Value history: arbitrary writes, and the derived `len` and `version`. -/

namespace Verif.Jmt
variable {D : Type}
open Verif.Spec

/-- One history after one write. -/
inductive Pushed (h : List (Version × Option Value)) (v : Version) (x : Option Value) : List (Version × Option Value) → Prop
  | push : (∀ e, h.getLast? = some e → e.1 < v) → Pushed h v x (h ++ [(v, x)])
  | over (h' : List (Version × Option Value)) (y : Option Value) : h = h' ++ [(v, y)] → Pushed h v x (h' ++ [(v, x)])

theorem putValueHistory_cases (vh : FMap Key (List (Version × Option Value))) (v : Version) (k : Key) (x : Option Value) :
    (∃ vh' h', Store.putValueHistory vh v k x = .ok vh' ∧ Pushed (vhGet vh k) v x h' ∧
      ∀ k', vhGet vh' k' = if k' = k then h' else vhGet vh k') ∨
    (Store.putValueHistory vh v k x = .error (.err "values must be pushed in order") ∧
      ∃ e, (vhGet vh k).getLast? = some e ∧ v < e.1) := by
  have hset : ∀ h' k', vhGet (vh.set k h') k' = if k' = k then h' else vhGet vh k' := by
    intro h' k'
    unfold vhGet
    rw [FMap.get_set]
    split <;> rfl
  unfold Store.putValueHistory
  cases hg : vh.get k with
  | none =>
    left
    have : vhGet vh k = [] := by simp [vhGet, hg]
    refine ⟨_, [(v, x)], rfl, ?_, hset _⟩
    rw [this]
    exact .push (by simp)
  | some h =>
    have hh : vhGet vh k = h := by simp [vhGet, hg]
    rw [hh]
    simp only
    cases hl : h.getLast? with
    | none => exact .inl ⟨_, h ++ [(v, x)], rfl, .push (by simp [hl]), hset _⟩
    | some e =>
      obtain ⟨lv, lx⟩ := e
      simp only
      by_cases h1 : v < lv
      · right
        rw [if_pos h1]
        exact ⟨rfl, _, rfl, h1⟩
      · left
        rw [if_neg h1]
        by_cases h2 : v = lv
        · subst h2
          rw [if_pos rfl]
          refine ⟨_, _, rfl, .over h.dropLast lx ?_, hset _⟩
          obtain ⟨_, h3⟩ := List.getLast?_eq_some_iff.1 hl
          rw [h3]; simp
        · rw [if_neg h2]
          refine ⟨_, _, rfl, .push ?_, hset _⟩
          intro e he
          rw [hl] at he
          cases he
          simp only
          omega

theorem Pushed.find {h h' : List (Version × Option Value)} {v : Version} {x : Option Value} (hp : Pushed h v x h') (w : Version) :
    h'.reverse.find? (fun e => decide (e.1 ≤ w)) = if v ≤ w then some (v, x) else h.reverse.find? (fun e => decide (e.1 ≤ w)) := by
  cases hp with
  | push _ => by_cases hv : v ≤ w <;> simp [hv]
  | over h1 y he => subst he; by_cases hv : v ≤ w <;> simp [hv]

theorem Pushed.last {h h' : List (Version × Option Value)} {v : Version} {x : Option Value} (hp : Pushed h v x h') :
    h'.getLast? = some (v, x) := by
  cases hp <;> simp

/-! the derived functions -/

theorem foldl_max_ge (l : List (Version × Option Value)) (a : Version) :
    a ≤ l.foldl (fun latest x => if latest < x.1 then x.1 else latest) a ∧
    (∀ e ∈ l, e.1 ≤ l.foldl (fun latest x => if latest < x.1 then x.1 else latest) a) ∧
    (l.foldl (fun latest x => if latest < x.1 then x.1 else latest) a = a ∨
      ∃ e ∈ l, l.foldl (fun latest x => if latest < x.1 then x.1 else latest) a = e.1) := by
  induction l generalizing a with
  | nil => simp
  | cons y l ih =>
    rw [List.foldl_cons]
    obtain ⟨h1, h2, h3⟩ := ih (if a < y.1 then y.1 else a)
    generalize l.foldl (fun latest x => if latest < x.1 then x.1 else latest) (if a < y.1 then y.1 else a) = r at *
    refine ⟨?_, ?_, ?_⟩
    · split at h1 <;> omega
    · intro e he
      simp only [List.mem_cons] at he
      rcases he with rfl | he
      · split at h1 <;> omega
      · exact h2 e he
    · rcases h3 with h3 | ⟨e, he, h3⟩
      · split at h3
        · exact .inr ⟨y, by simp, h3⟩
        · exact .inl h3
      · exact .inr ⟨e, by simp [he], h3⟩

theorem version_fold (l : List (Key × List (Version × Option Value))) (a : Version) :
    a ≤ l.foldl (fun latest e => e.2.foldl (fun latest x => if latest < x.1 then x.1 else latest) latest) a ∧
    (∀ e ∈ l, ∀ x ∈ e.2, x.1 ≤ l.foldl (fun latest e => e.2.foldl (fun latest x => if latest < x.1 then x.1 else latest) latest) a) ∧
    (l.foldl (fun latest e => e.2.foldl (fun latest x => if latest < x.1 then x.1 else latest) latest) a = a ∨
      ∃ e ∈ l, ∃ x ∈ e.2, l.foldl (fun latest e => e.2.foldl (fun latest x => if latest < x.1 then x.1 else latest) latest) a = x.1) := by
  induction l generalizing a with
  | nil => simp
  | cons y l ih =>
    rw [List.foldl_cons]
    obtain ⟨g1, g2, g3⟩ := foldl_max_ge y.2 a
    obtain ⟨h1, h2, h3⟩ := ih (y.2.foldl (fun latest x => if latest < x.1 then x.1 else latest) a)
    generalize l.foldl (fun latest e => e.2.foldl (fun latest x => if latest < x.1 then x.1 else latest) latest)
      (y.2.foldl (fun latest x => if latest < x.1 then x.1 else latest) a) = r at *
    refine ⟨by omega, ?_, ?_⟩
    · intro e he x hx
      simp only [List.mem_cons] at he
      rcases he with rfl | he
      · have := g2 x hx; omega
      · exact h2 e he x hx
    · rcases h3 with h3 | ⟨e, he, x, hx, h3⟩
      · rw [h3]
        rcases g3 with g3 | ⟨x, hx, g3⟩
        · exact .inl g3
        · exact .inr ⟨y, by simp, x, hx, g3⟩
      · exact .inr ⟨e, by simp [he], x, hx, h3⟩

theorem histOf_last (v0 : Version) (hist : List Commit) (k : Key) :
    ((histOf v0 hist k).getLast?).bind (fun e => e.2) = contents (hist.map Commit.updates) k := by
  have h := histOf_find v0 hist k (v0 + hist.length)
  rw [List.take_of_length_le (by omega)] at h
  rw [← h]
  have hall : ∀ e ∈ (histOf v0 hist k).reverse, e.1 ≤ v0 + hist.length := by
    intro e he
    have := histOf_bounds (List.mem_reverse.1 he)
    omega
  rw [← List.head?_reverse]
  cases hr : (histOf v0 hist k).reverse with
  | nil => rfl
  | cons e l =>
    have := hall e (by rw [hr]; simp)
    simp [this]

theorem StoreInv.entry {H : Hasher D} {v0 lo : Version} {hist : List Commit} {s : Store D} (h : StoreInv H v0 hist lo s) {k : Key}
    {l : List (Version × Option Value)} (he : (k, l) ∈ s.valueHistory.entries) : l = histOf v0 hist k := by
  rw [← h.values, vhGet, FMap.get_of_mem h.vnodup he]; rfl

theorem StoreInv.entry_of {H : Hasher D} {v0 lo : Version} {hist : List Commit} {s : Store D} (h : StoreInv H v0 hist lo s) {k : Key}
    (hne : histOf v0 hist k ≠ []) : (k, histOf v0 hist k) ∈ s.valueHistory.entries := by
  have := h.values k
  unfold vhGet at this
  cases hg : s.valueHistory.get k with
  | none => rw [hg] at this; exact absurd this.symm hne
  | some l =>
    rw [hg] at this
    simp only [Option.getD_some] at this
    rw [← this]
    exact FMap.mem_of_get hg

theorem StoreInv.len {H : Hasher D} {v0 lo : Version} {hist : List Commit} {s : Store D} (h : StoreInv H v0 hist lo s)
    {L : List (Key × D)} (hL : Lists H (contents (hist.map Commit.updates)) L) : s.len = L.length := by
  unfold Store.len
  have hp : ((s.valueHistory.entries.filter (fun e => match e.2.getLast? with | some (_, some _) => true | _ => false)).map Prod.fst).Perm
      (L.map Prod.fst) := by
    rw [List.perm_ext_iff_of_nodup ((List.filter_sublist.map _).nodup h.vnodup) hL.1]
    intro k
    have h1 : k ∈ L.map Prod.fst ↔ (contents (hist.map Commit.updates) k).isSome = true := by
      simp only [List.mem_map]
      constructor
      · rintro ⟨⟨k', x⟩, hm, rfl⟩
        have := (hL.2 k' x).1 hm
        cases hc : contents (hist.map Commit.updates) k' with
        | none => rw [hc] at this; cases this
        | some y => simp [hc]
      · intro hs
        obtain ⟨x, hx⟩ := Option.isSome_iff_exists.1 hs
        exact ⟨(k, H.value x), (hL.2 k (H.value x)).2 (by rw [hx]; rfl), rfl⟩
    rw [h1, ← histOf_last v0]
    simp only [List.mem_map, List.mem_filter]
    constructor
    · rintro ⟨⟨k', l⟩, ⟨hm, hx⟩, rfl⟩
      rw [h.entry hm] at hx
      simp only at hx ⊢
      cases hl : (histOf v0 hist k').getLast? with
      | none => rw [hl] at hx; cases hx
      | some e =>
        obtain ⟨v, x⟩ := e
        rw [hl] at hx
        cases x with
        | none => cases hx
        | some x => rfl
    · intro hs
      refine ⟨(k, histOf v0 hist k), ⟨h.entry_of ?_, ?_⟩, rfl⟩
      · intro he; rw [he] at hs; cases hs
      · simp only
        cases hl : (histOf v0 hist k).getLast? with
        | none => rw [hl] at hs; cases hs
        | some e =>
          obtain ⟨v, x⟩ := e
          rw [hl] at hs
          cases x with
          | none => cases hs
          | some x => rfl
  have := hp.length_eq
  rw [List.length_map, List.length_map] at this
  exact this

theorem lastOf_isSome_iff {α : Type} (s : List (Key × α)) (k : Key) : (lastOf s k).isSome = true ↔ ∃ e ∈ s, e.1 = k := by
  induction s with
  | nil => simp [lastOf]
  | cons e s ih =>
    rw [lastOf, Option.isSome_or, Bool.or_eq_true, ih]
    by_cases he : e.1 = k <;> simp [he]

theorem StoreInv.version {H : Hasher D} {v0 lo : Version} {hist : List Commit} {s : Store D} (h : StoreInv H v0 hist lo s) :
    (∀ i cm, hist[i]? = some cm → cm.updates ≠ [] → v0 + i ≤ s.version) ∧
    (s.version = 0 ∨ ∃ i cm, hist[i]? = some cm ∧ cm.updates ≠ [] ∧ s.version = v0 + i) := by
  obtain ⟨_, h2, h3⟩ := version_fold s.valueHistory.entries 0
  refine ⟨?_, ?_⟩
  · intro i cm hi hne
    obtain ⟨e, he⟩ := List.exists_mem_of_ne_nil _ hne
    obtain ⟨x, hx⟩ := Option.isSome_iff_exists.1 ((lastOf_isSome_iff cm.updates e.1).2 ⟨e, he, rfl⟩)
    have hm : (v0 + i, x) ∈ histOf v0 hist e.1 := histOf_mem.2 ⟨by omega, by rw [show v0 + i - v0 = i by omega, hi]; exact hx⟩
    exact h2 _ (h.entry_of (List.ne_nil_of_mem hm)) _ hm
  · rcases h3 with h3 | ⟨⟨k, l⟩, he, x, hx, h3⟩
    · exact .inl h3
    · right
      have := h.entry he
      simp only at hx
      rw [this] at hx
      obtain ⟨g1, g2, g3⟩ := histOf_bounds hx
      rw [Option.bind_eq_some_iff] at g3
      obtain ⟨cm, g3, g4⟩ := g3
      refine ⟨x.1 - v0, cm, g3, ?_, ?_⟩
      · intro hn; rw [hn] at g4; cases g4
      · unfold Store.version; rw [h3]; omega

end Verif.Jmt
