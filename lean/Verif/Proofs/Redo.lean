import Verif.Proofs.Interrupt
import Verif.Proofs.Fork
import Mathlib.Tactic.Choose
/-! Writing a batch again on a store that holds part of it. -/

set_option autoImplicit false

namespace Verif.Jmt
variable {D : Type}

/-! nodes -/

theorem writeNodes_over (l : List (NodeKey × Node D)) (m : FMap NodeKey (Node D)) : Store.writeNodes true l m = .ok (m.extend l) := by
  induction l generalizing m with
  | nil => rfl
  | cons e t ih =>
    obtain ⟨nk, n⟩ := e
    simp only [Store.writeNodes, Bool.not_true, Bool.false_eq_true, if_false]
    exact ih _

theorem writeNodes_taken (l : List (NodeKey × Node D)) (m : FMap NodeKey (Node D)) {nk : NodeKey} {n : Node D} (hl : (nk, n) ∈ l)
    (hm : (m.get nk).isSome = true) : ∃ e, Store.writeNodes false l m = .error (.panic e) := by
  induction l generalizing m with
  | nil => cases hl
  | cons e t ih =>
    obtain ⟨nk', n'⟩ := e
    simp only [Store.writeNodes, Bool.not_false, if_true]
    cases hg : m.get nk' with
    | some x => exact ⟨_, rfl⟩
    | none =>
      rcases List.mem_cons.1 hl with h | h
      · cases h; rw [hg] at hm; cases hm
      · refine ih _ h ?_
        rw [FMap.get_set]
        split
        · rfl
        · exact hm

/-! values of one key -/

/-- `put_value` on the history of one key. -/
def push (h : List (Version × Option Value)) (e : Version × Option Value) : Option (List (Version × Option Value)) :=
  match h.getLast? with
  | some l => if e.1 < l.1 then none else if e.1 = l.1 then some (h.dropLast ++ [e]) else some (h ++ [e])
  | none => some (h ++ [e])

def pushAll (h : List (Version × Option Value)) : List (Version × Option Value) → Option (List (Version × Option Value))
  | [] => some h
  | e :: l => (push h e).bind (fun h => pushAll h l)

theorem pushAll_append (h : List (Version × Option Value)) (l l' : List (Version × Option Value)) :
    pushAll h (l ++ l') = (pushAll h l).bind (fun h => pushAll h l') := by
  induction l generalizing h with
  | nil => rfl
  | cons e l ih =>
    simp only [List.cons_append, pushAll]
    cases push h e with
    | none => rfl
    | some h' => exact ih h'

theorem putValueHistory_push (vh : FMap Key (List (Version × Option Value))) (v : Version) (k : Key) (x : Option Value) :
    match push (vhGet vh k) (v, x) with
    | some h => ∃ vh', Store.putValueHistory vh v k x = .ok vh' ∧ vhGet vh' k = h ∧ ∀ k', k' ≠ k → vhGet vh' k' = vhGet vh k'
    | none => Store.putValueHistory vh v k x = .error (.err "values must be pushed in order") := by
  have hset : ∀ y, vhGet (vh.set k y) k = y ∧ ∀ k', k' ≠ k → vhGet (vh.set k y) k' = vhGet vh k' := by
    intro y
    refine ⟨?_, ?_⟩
    · simp [vhGet, FMap.get_set]
    · intro k' hk; simp [vhGet, FMap.get_set, hk]
  unfold Store.putValueHistory push
  cases hg : vh.get k with
  | none =>
    simp only [vhGet, hg, Option.getD_none, List.getLast?_nil, List.nil_append]
    exact ⟨_, rfl, hset _⟩
  | some h =>
    simp only [vhGet, hg, Option.getD_some]
    cases hl : h.getLast? with
    | none => exact ⟨_, rfl, hset _⟩
    | some e =>
      obtain ⟨lv, lx⟩ := e
      simp only
      by_cases h1 : v < lv
      · simp only [if_pos h1]
      · simp only [if_neg h1]
        by_cases h2 : v = lv
        · simp only [if_pos h2]; exact ⟨_, rfl, hset _⟩
        · simp only [if_neg h2]; exact ⟨_, rfl, hset _⟩

/-- The values of one key in a list. -/
def valuesOf (l : List ((Version × Key) × Option Value)) (k : Key) : List (Version × Option Value) :=
  (l.filter (fun e => decide (e.1.2 = k))).map (fun e => (e.1.1, e.2))

theorem valuesOf_append (l l' : List ((Version × Key) × Option Value)) (k : Key) : valuesOf (l ++ l') k = valuesOf l k ++ valuesOf l' k := by
  simp [valuesOf]

theorem valuesOf_cons (v : Version) (k : Key) (x : Option Value) (l : List ((Version × Key) × Option Value)) (k' : Key) :
    valuesOf (((v, k), x) :: l) k' = if k = k' then (v, x) :: valuesOf l k' else valuesOf l k' := by
  unfold valuesOf
  by_cases h : k = k' <;> simp [h]

theorem mem_valuesOf {l : List ((Version × Key) × Option Value)} {k : Key} {v : Version} {x : Option Value} :
    (v, x) ∈ valuesOf l k ↔ ((v, k), x) ∈ l := by
  unfold valuesOf
  simp only [List.mem_map, List.mem_filter, decide_eq_true_eq]
  constructor
  · rintro ⟨⟨⟨v', k'⟩, x'⟩, ⟨h1, h2⟩, h3⟩
    simp only [Prod.mk.injEq] at h2 h3
    obtain ⟨rfl, rfl⟩ := h3
    subst h2
    exact h1
  · intro h; exact ⟨((v, k), x), ⟨h, rfl⟩, rfl⟩

/-- Values are written key by key. -/
theorem writeValues_push (l : List ((Version × Key) × Option Value)) (vh : FMap Key (List (Version × Option Value))) :
    (∀ g : Key → List (Version × Option Value), (∀ k, pushAll (vhGet vh k) (valuesOf l k) = some (g k)) →
      ∃ vh', Store.writeValues l vh = .ok vh' ∧ ∀ k, vhGet vh' k = g k) ∧
    ((∃ k, pushAll (vhGet vh k) (valuesOf l k) = none) → Store.writeValues l vh = .error (.err "values must be pushed in order")) := by
  induction l generalizing vh with
  | nil =>
    refine ⟨?_, ?_⟩
    · intro g hg
      refine ⟨vh, rfl, fun k => ?_⟩
      have := hg k
      simpa [valuesOf, pushAll] using this
    · rintro ⟨k, hk⟩; cases hk
  | cons e l ih =>
    obtain ⟨⟨v, k⟩, x⟩ := e
    have hp := putValueHistory_push vh v k x
    simp only [Store.writeValues]
    cases hq : push (vhGet vh k) (v, x) with
    | none =>
      rw [hq] at hp
      simp only at hp
      refine ⟨?_, ?_⟩
      · intro g hg
        have := hg k
        rw [valuesOf_cons, if_pos rfl] at this
        simp only [pushAll, hq, Option.bind_none] at this
        cases this
      · intro _; rw [hp]; rfl
    | some h =>
      rw [hq] at hp
      simp only at hp
      obtain ⟨vh1, e1, e2, e3⟩ := hp
      have hk : ∀ k', pushAll (vhGet vh k') (valuesOf (((v, k), x) :: l) k') = pushAll (vhGet vh1 k') (valuesOf l k') := by
        intro k'
        rw [valuesOf_cons]
        by_cases hkk : k = k'
        · subst hkk
          simp only [if_pos, pushAll, hq, Option.bind_some, e2]
        · rw [if_neg hkk, e3 k' (fun h => hkk h.symm)]
      rw [e1]
      obtain ⟨i1, i2⟩ := ih vh1
      refine ⟨fun g hg => i1 g (fun k => (hk k) ▸ hg k), ?_⟩
      rintro ⟨k', h'⟩
      exact i2 ⟨k', (hk k') ▸ h'⟩

theorem valuesOf_sorted {l : List ((Version × Key) × Option Value)} (hs : OMap.Sorted valueKeyLt l) (k : Key) :
    (valuesOf l k).Pairwise (fun a b => a.1 < b.1) := by
  unfold valuesOf
  rw [List.pairwise_map]
  refine List.Pairwise.imp_of_mem ?_ (List.Pairwise.filter _ hs)
  rintro ⟨⟨v, k1⟩, x⟩ ⟨⟨v', k2⟩, x'⟩ h1 h2 h
  simp only [List.mem_filter, decide_eq_true_eq] at h1 h2
  obtain ⟨_, rfl⟩ := h1
  obtain ⟨_, rfl⟩ := h2
  by_cases hv : v = v'
  · subst hv
    rw [valueKeyLt_strict.irrefl] at h
    cases h
  · simp only [valueKeyLt, decide_eq_true_eq] at h
    rcases h with h | ⟨h, _⟩
    · exact h
    · exact absurd h hv

/-- Later and later values are appended. -/
theorem pushAll_later (h l : List (Version × Option Value)) (hl : l.Pairwise (fun a b => a.1 < b.1)) (hd : ∀ e ∈ l, ∀ y ∈ h, y.1 < e.1) :
    pushAll h l = some (h ++ l) := by
  induction l generalizing h with
  | nil => simp [pushAll]
  | cons e l ih =>
    have hp : push h e = some (h ++ [e]) := by
      unfold push
      cases hg : h.getLast? with
      | none => rfl
      | some y =>
        have := hd e (by simp) y (List.mem_of_getLast? hg)
        simp only [show ¬ e.1 < y.1 by omega, show ¬ e.1 = y.1 by omega, if_false]
    simp only [pushAll, hp, Option.bind_some]
    have h' := List.pairwise_cons.1 hl
    rw [ih _ h'.2]
    · simp
    · intro e' he y hy
      rcases List.mem_append.1 hy with hy | hy
      · exact hd e' (by simp [he]) y hy
      · rw [List.mem_singleton] at hy; subst hy; exact h'.1 _ he

/-- Values that were appended once are replaced when they are pushed again, if there is at most one. -/
theorem pushAll_again (h l l' : List (Version × Option Value)) (hl : (l ++ l').Pairwise (fun a b => a.1 < b.1))
    (hd : ∀ e ∈ l ++ l', ∀ y ∈ h, y.1 < e.1) (h1 : ∀ a ∈ l, ∀ b ∈ l, a.1 = b.1) : pushAll (h ++ l) (l ++ l') = some (h ++ (l ++ l')) := by
  match l, h1 with
  | [], _ => simpa using pushAll_later h l' (by simpa using hl) (by simpa using hd)
  | [e], _ =>
    have hp : push (h ++ [e]) e = some (h ++ [e]) := by simp [push]
    simp only [List.cons_append, List.nil_append, pushAll, hp, Option.bind_some]
    have h' := List.pairwise_cons.1 (show (e :: l').Pairwise (fun a b => a.1 < b.1) from hl)
    rw [pushAll_later _ _ h'.2]
    · simp
    · intro e' he y hy
      rcases List.mem_append.1 hy with hy | hy
      · exact hd e' (by simp [he]) y hy
      · rw [List.mem_singleton] at hy; subst hy; exact h'.1 _ he
  | a :: b :: l, h1 =>
    have := (List.pairwise_cons.1 hl).1 b (by simp)
    have := h1 a (by simp) b (by simp)
    omega

/-- Values of two versions cannot be pushed again. -/
theorem pushAll_stuck (h l l' : List (Version × Option Value)) (hl : (l ++ l').Pairwise (fun a b => a.1 < b.1))
    (h1 : ∃ a ∈ l, ∃ b ∈ l, a.1 ≠ b.1) : pushAll (h ++ l) (l ++ l') = none := by
  match l, h1 with
  | [], ⟨a, ha, _⟩ => cases ha
  | [e], ⟨a, ha, b, hb, hne⟩ =>
    rw [List.mem_singleton] at ha hb
    subst ha; subst hb
    exact absurd rfl hne
  | a :: b :: l, _ =>
    obtain ⟨y, hy⟩ : ∃ y, (b :: l).getLast? = some y := ⟨_, List.getLast?_eq_some_getLast (by simp)⟩
    have hlt : a.1 < y.1 := (List.pairwise_cons.1 hl).1 y (List.mem_append_left _ (List.mem_of_getLast? hy))
    have hg : (h ++ a :: b :: l).getLast? = some y := by
      rw [List.getLast?_append, List.getLast?_cons, hy]; rfl
    simp only [List.cons_append, pushAll, push, hg, if_pos hlt, Option.bind_none]

/-! marks -/

theorem putStale_taken (l : List StaleNodeIndex) (s : FSet StaleNodeIndex) {i : StaleNodeIndex} (hl : i ∈ l) (hs : i ∈ s) :
    Store.putStale l s = .error (.err "Duplicated retire log.") := by
  induction l generalizing s with
  | nil => cases hl
  | cons a t ih =>
    simp only [Store.putStale]
    by_cases ha : s.contains a = true
    · simp [ha, ensure]
    · have ha' : s.contains a = false := by simpa using ha
      simp only [ha', Bool.not_false, ensure]
      rcases List.mem_cons.1 hl with h | h
      · subst h
        exact absurd ((FSet.contains_iff _ _).2 hs) ha
      · exact ih (s.insert a) h (by rw [FSet.mem_insert]; exact .inr hs)

/-! the part that was written -/

/-- Changes made before an interruption: some nodes, the first few values, some marks. -/
theorem WritesOf.split {b : TreeUpdateBatch D} {ws ws' : List (Write D)} (h : WritesOf b (ws ++ ws')) :
    ∃ (ns ns' : List (NodeKey × Node D)) (vs vs' : List ((Version × Key) × Option Value)) (ms ms' : List StaleNodeIndex),
      (ns ++ ns').Perm b.nodeBatch.nodes.entries ∧ vs ++ vs' = b.nodeBatch.values.entries ∧ (ms ++ ms').Perm b.staleNodeIndexBatch.elems ∧
      ws = ns.map (fun e => .node e.1 e.2) ++ vs.map (fun e => .value e.1.1 e.1.2 e.2) ++ ms.map .mark := by
  obtain ⟨ns, ms, h1, h2, h3⟩ := h
  have key : ∀ {α β : Type} (f : α → β) (l : List α) (a b : List β), a ++ b = l.map f → ∃ l1 l2, l = l1 ++ l2 ∧ a = l1.map f ∧ b = l2.map f := by
    intro α β f l a b h
    obtain ⟨l1, l2, e1, e2, e3⟩ := List.map_eq_append_iff.1 h.symm
    exact ⟨l1, l2, e1, e2.symm, e3.symm⟩
  rcases List.append_eq_append_iff.1 h3 with ⟨c, e1, e2⟩ | ⟨c, e1, e2⟩
  · rcases List.append_eq_append_iff.1 e1 with ⟨d, g1, g2⟩ | ⟨d, g1, g2⟩
    · obtain ⟨v1, v2, ev, ed, _⟩ := key _ _ _ _ g2.symm
      refine ⟨ns, [], v1, v2, [], ms, by simpa using h1, ev.symm, h2, ?_⟩
      rw [g1, ed]; simp
    · obtain ⟨n1, n2, rfl, rfl, _⟩ := key _ _ _ _ g1.symm
      exact ⟨n1, n2, [], b.nodeBatch.values.entries, [], ms, h1, rfl, h2, by simp⟩
  · obtain ⟨m1, m2, rfl, hc, _⟩ := key _ _ _ _ e2.symm
    refine ⟨ns, [], b.nodeBatch.values.entries, [], m1, m2, by simpa using h1, by simp, h2, ?_⟩
    rw [e1, hc]

/-- What a part of the changes makes of the store. -/
structure Part (s : Store D) (b : TreeUpdateBatch D) (vs : List ((Version × Key) × Option Value)) (ms : List StaleNodeIndex)
    (s' : Store D) : Prop where
  nodes : ∀ nk, s'.nodes.get nk = s.nodes.get nk ∨ s'.nodes.get nk = (b.nodeBatch.nodes.get nk).or (s.nodes.get nk)
  values : ∀ k, vhGet s'.valueHistory k = vhGet s.valueHistory k ++ valuesOf vs k
  marks : ∀ i, i ∈ s'.staleNodes ↔ i ∈ s.staleNodes ∨ i ∈ ms

/-- The same reads. -/
theorem reader_ext {s s' : Store D} (h1 : ∀ nk, s'.nodes.get nk = s.nodes.get nk) (h2 : ∀ k, vhGet s'.valueHistory k = vhGet s.valueHistory k) :
    s'.reader = s.reader := by
  have e1 : s'.nodes.get = s.nodes.get := funext h1
  have e2 : s'.getValueOption = s.getValueOption := by
    funext w k
    rw [getValueOption_eq, getValueOption_eq, h2]
  unfold Store.reader
  rw [e1, e2]

theorem putStale_ok {l : List StaleNodeIndex} {s s' : FSet StaleNodeIndex} (h : Store.putStale l s = .ok s') (i : StaleNodeIndex) :
    i ∈ s' ↔ i ∈ s ∨ i ∈ l := by
  induction l generalizing s with
  | nil => cases h; simp
  | cons a t ih =>
    simp only [Store.putStale] at h
    cases he : ensure (!s.contains a) "Duplicated retire log." with
    | error e => rw [he] at h; cases h
    | ok u =>
      rw [he] at h
      rw [ih h, FSet.mem_insert, List.mem_cons]
      constructor
      · rintro ((h | h) | h)
        · exact .inr (.inl h)
        · exact .inl h
        · exact .inr (.inr h)
      · rintro (h | h | h)
        · exact .inl (.inr h)
        · exact .inl (.inl h)
        · exact .inr h

/-- Pushing some of the first values again changes nothing, if it succeeds. -/
theorem pushAll_shorter (h l l' : List (Version × Option Value)) (hl : (l ++ l').Pairwise (fun a b => a.1 < b.1))
    {g : List (Version × Option Value)} (hg : pushAll (h ++ (l ++ l')) l = some g) : g = h ++ (l ++ l') := by
  match l with
  | [] => exact (Option.some.inj hg).symm
  | e :: l =>
    by_cases hn : l ++ l' = []
    · obtain ⟨rfl, rfl⟩ := List.append_eq_nil_iff.1 hn
      have : push (h ++ [e]) e = some (h ++ [e]) := by simp [push]
      simp only [List.append_nil, pushAll, this, Option.bind_some] at hg
      simpa using (Option.some.inj hg).symm
    · obtain ⟨y, hy⟩ : ∃ y, (l ++ l').getLast? = some y := ⟨_, List.getLast?_eq_some_getLast hn⟩
      have hlt : e.1 < y.1 := (List.pairwise_cons.1 hl).1 y (List.mem_of_getLast? hy)
      have hgl : (h ++ (e :: l ++ l')).getLast? = some y := by
        rw [List.getLast?_append, List.cons_append, List.getLast?_cons, hy]; rfl
      simp only [pushAll, push, hgl, if_pos hlt, Option.bind_none] at hg
      cases hg

section
variable {H : Hasher D} {v0 lo : Version} {hist new : List Commit} {s s' : Store D} {roots : List D} {b : TreeUpdateBatch D}
  {vs vs' : List ((Version × Key) × Option Value)} {ms : List StaleNodeIndex}

/-- Part of the changes again. -/
theorem StoreInv.part_step (h : StoreInv H v0 hist lo s) (hb : BatchSpec H v0 hist new lo s roots b)
    (hv : vs <+: b.nodeBatch.values.entries) (hm : ms ⊆ b.staleNodeIndexBatch.elems) (hp : Part s b vs ms s')
    {ws ws' : List (Write D)} (hw : WritesOf b (ws ++ ws')) {s2 : Store D} (ha : s'.applyAll ws = .ok s2) :
    ∃ vs2 ms2, vs2 <+: b.nodeBatch.values.entries ∧ ms2 ⊆ b.staleNodeIndexBatch.elems ∧ Part s b vs2 ms2 s2 ∧ s2.allowOverwrite = s'.allowOverwrite := by
  obtain ⟨ns, ns', us, us', rs, rs', hn, hu, hr, rfl⟩ := hw.split
  have hnd : (ns.map Prod.fst).Nodup := by
    have := (hn.map Prod.fst).nodup_iff.2 hb.nodup
    rw [List.map_append] at this
    exact (List.nodup_append.1 this).1
  rw [applyAll_three] at ha
  cases e1 : Store.writeNodes s'.allowOverwrite ns s'.nodes with
  | error e => rw [e1] at ha; cases ha
  | ok m =>
  cases e2 : Store.writeValues us s'.valueHistory with
  | error e => rw [e1] at ha; simp only [Except.bind, e2] at ha; cases ha
  | ok vh =>
  cases e3 : Store.putStale rs s'.staleNodes with
  | error e => rw [e1] at ha; simp only [Except.bind, e2, e3, Except.map] at ha; cases ha
  | ok st =>
  rw [e1] at ha
  simp only [Except.bind, e2, e3, Except.map] at ha
  cases ha
  have hm' : m = s'.nodes.extend ns := by
    have : ∀ (ao : Bool) (l : List (NodeKey × Node D)) (m m' : FMap NodeKey (Node D)), Store.writeNodes ao l m = .ok m' → m' = m.extend l := by
      intro ao l
      induction l with
      | nil => intro m m' hh; cases hh; rfl
      | cons e t ih =>
        intro m m' hh
        obtain ⟨nk, n⟩ := e
        cases ao with
        | true =>
          rw [writeNodes_over] at hh
          cases hh; rfl
        | false =>
          simp only [Store.writeNodes, Bool.not_false, if_true] at hh
          cases ha : assert ((m.get nk).isNone) "assertion failed: replaced == None" with
          | error e => rw [ha] at hh; cases hh
          | ok u => rw [ha] at hh; exact ih _ _ hh
    exact this _ _ _ _ e1
  have hnodes : ∀ nk, m.get nk = s.nodes.get nk ∨ m.get nk = (b.nodeBatch.nodes.get nk).or (s.nodes.get nk) := by
    intro nk
    rw [hm', FMap.get_extend _ _ hnd]
    cases hg : (⟨ns⟩ : FMap NodeKey (Node D)).get nk with
    | none => rw [Option.none_or]; exact hp.nodes nk
    | some n =>
      have := FMap.get_of_mem hb.nodup (hn.mem_iff.1 (List.mem_append_left _ (FMap.mem_of_get hg)))
      right
      rw [this]; rfl
  have hmarks : ∀ i, i ∈ st ↔ i ∈ s.staleNodes ∨ i ∈ ms ++ rs := by
    intro i
    rw [putStale_ok e3, hp.marks, List.mem_append]
    constructor
    · rintro ((h | h) | h)
      · exact .inl h
      · exact .inr (.inl h)
      · exact .inr (.inr h)
    · rintro (h | h | h)
      · exact .inl (.inl h)
      · exact .inl (.inr h)
      · exact .inr h
  have hrs : ms ++ rs ⊆ b.staleNodeIndexBatch.elems :=
    List.append_subset.2 ⟨hm, fun i hi => hr.mem_iff.1 (List.mem_append_left _ hi)⟩
  obtain ⟨w1, w2⟩ := writeValues_push us s'.valueHistory
  have hsome : ∀ k, ∃ g, pushAll (vhGet s'.valueHistory k) (valuesOf us k) = some g := by
    intro k
    cases hg : pushAll (vhGet s'.valueHistory k) (valuesOf us k) with
    | none => rw [w2 ⟨k, hg⟩] at e2; cases e2
    | some g => exact ⟨g, rfl⟩
  choose g hg using hsome
  obtain ⟨vh2, f1, f2⟩ := w1 g hg
  rw [e2] at f1
  cases f1
  have hup : us <+: b.nodeBatch.values.entries := ⟨us', hu⟩
  have hsort : ∀ (x : List ((Version × Key) × Option Value)), x <+: b.nodeBatch.values.entries → ∀ k, (valuesOf x k).Pairwise (fun a b => a.1 < b.1) :=
    fun x hx k => valuesOf_sorted (List.Pairwise.sublist hx.sublist hb.vsorted) k
  rcases List.prefix_or_prefix_of_prefix hv hup with ⟨r, rfl⟩ | ⟨r, rfl⟩
  · refine ⟨vs ++ r, ms ++ rs, hup, hrs, ⟨hnodes, ?_, hmarks⟩, rfl⟩
    intro k
    have hk := hg k
    rw [hp.values, valuesOf_append] at hk
    show vhGet vh k = _
    rw [f2, valuesOf_append]
    by_cases hall : ∀ a ∈ valuesOf vs k, ∀ b ∈ valuesOf vs k, a.1 = b.1
    · rw [pushAll_again _ _ _ (by rw [← valuesOf_append]; exact hsort _ hup k) (by
        rw [← valuesOf_append]
        rintro ⟨v, x⟩ he y hy
        exact h.valuesFresh hb _ (hup.subset (mem_valuesOf.1 he)) y hy) hall] at hk
      exact (Option.some.inj hk).symm
    · rw [pushAll_stuck _ _ _ (by rw [← valuesOf_append]; exact hsort _ hup k) (by
        simp only [not_forall] at hall
        obtain ⟨a, ha, b, hb, hne⟩ := hall
        exact ⟨a, ha, b, hb, hne⟩)] at hk
      cases hk
  · refine ⟨us ++ r, ms ++ rs, hv, hrs, ⟨hnodes, ?_, hmarks⟩, rfl⟩
    intro k
    have hk := hg k
    rw [hp.values, valuesOf_append] at hk
    show vhGet vh k = _
    rw [f2, valuesOf_append]
    exact pushAll_shorter _ _ _ (by rw [← valuesOf_append]; exact hsort _ hv k) hk

theorem StoreInv.attempts (h : StoreInv H v0 hist lo s) (hb : BatchSpec H v0 hist new lo s roots b) (ha : Attempts s b s') :
    s'.allowOverwrite = true ∧ ∃ vs ms, vs <+: b.nodeBatch.values.entries ∧ ms ⊆ b.staleNodeIndexBatch.elems ∧ Part s b vs ms s' := by
  induction ha with
  | none => exact ⟨rfl, [], [], List.nil_prefix, List.nil_subset _, fun _ => .inl rfl, fun _ => by simp [valuesOf], fun _ => by simp⟩
  | again _ hw ha ih =>
    obtain ⟨ho, vs, ms, h1, h2, h3⟩ := ih
    obtain ⟨vs2, ms2, g1, g2, g3, g4⟩ := h.part_step hb h1 h2 h3 hw ha
    exact ⟨g4.trans ho, vs2, ms2, g1, g2, g3⟩

theorem StoreInv.full (h : StoreInv H v0 hist lo s) (hb : BatchSpec H v0 hist new lo s roots b) {s2 : Store D}
    (hs2 : s.writeTreeUpdateBatch b = .ok s2) :
    (∀ nk, s2.nodes.get nk = (b.nodeBatch.nodes.get nk).or (s.nodes.get nk)) ∧
    (∀ k, vhGet s2.valueHistory k = vhGet s.valueHistory k ++ valuesOf b.nodeBatch.values.entries k) ∧
    ∀ i, i ∈ s2.staleNodes ↔ i ∈ s.staleNodes ∨ i ∈ b.staleNodeIndexBatch.elems := by
  obtain ⟨s3, e1, _, e2, e3, _⟩ := h.write hb
  rw [hs2] at e1
  cases e1
  refine ⟨e2, ?_, e3⟩
  obtain ⟨vh', f1, f2⟩ := writeValues_spec b.nodeBatch.values.entries s.valueHistory hb.vsorted (h.valuesFresh hb)
  rw [writeTreeUpdateBatch_eq, writesOf, applyAll_three] at hs2
  cases e1 : Store.writeNodes s.allowOverwrite b.nodeBatch.nodes.entries s.nodes with
  | error e => rw [e1] at hs2; cases hs2
  | ok m =>
    rw [e1] at hs2
    simp only [Except.bind, f1] at hs2
    cases e3 : Store.putStale b.staleNodeIndexBatch.elems s.staleNodes with
    | error e => rw [e3] at hs2; cases hs2
    | ok st =>
      rw [e3] at hs2
      cases hs2
      exact f2

/-- Writing the batch again completes it. -/
theorem StoreInv.redo (h : StoreInv H v0 hist lo s) (hb : BatchSpec H v0 hist new lo s roots b)
    (hv : vs ++ vs' = b.nodeBatch.values.entries) (hp : Part s b vs [] s') (ho : s'.allowOverwrite = true)
    (hvs : ∀ k, ∀ a ∈ valuesOf vs k, ∀ b ∈ valuesOf vs k, a.1 = b.1) {s2 : Store D} (hs2 : s.writeTreeUpdateBatch b = .ok s2) :
    ∃ s3, s'.writeTreeUpdateBatch b = .ok s3 ∧ (∀ nk, s3.nodes.get nk = s2.nodes.get nk) ∧
      (∀ k, vhGet s3.valueHistory k = vhGet s2.valueHistory k) ∧ (∀ i, i ∈ s3.staleNodes ↔ i ∈ s2.staleNodes) := by
  obtain ⟨hf1, hf2, hf3⟩ := h.full hb hs2
  have hval : ∀ k, valuesOf b.nodeBatch.values.entries k = valuesOf vs k ++ valuesOf vs' k := by intro k; rw [← hv, valuesOf_append]
  obtain ⟨vh', e1, e2⟩ := (writeValues_push b.nodeBatch.values.entries s'.valueHistory).1
    (fun k => vhGet s.valueHistory k ++ valuesOf b.nodeBatch.values.entries k) (by
      intro k
      rw [hp.values, hval]
      refine pushAll_again _ _ _ ?_ ?_ (hvs k)
      · rw [← hval]; exact valuesOf_sorted hb.vsorted k
      · rw [← hval]
        rintro ⟨v, x⟩ he y hy
        exact h.valuesFresh hb _ (mem_valuesOf.1 he) y hy)
  have e3 := putStale_spec b.staleNodeIndexBatch.elems s'.staleNodes hb.snodup (by
    intro i hi hm
    rcases (hp.marks i).1 hm with hm | hm
    · exact h.marksFresh hb i hi hm
    · cases hm)
  refine ⟨⟨s'.nodes.extend b.nodeBatch.nodes.entries, b.staleNodeIndexBatch.elems.foldl FSet.insert s'.staleNodes, vh', true⟩, ?_, ?_, ?_, ?_⟩
  · rw [writeTreeUpdateBatch_eq, writesOf, applyAll_three, ho, writeNodes_over]
    simp only [Except.bind, e1, e3, Except.map]
  · intro nk
    show (s'.nodes.extend b.nodeBatch.nodes.entries).get nk = _
    rw [FMap.get_extend _ _ hb.nodup, hf1]
    have := hp.nodes nk
    cases hg : b.nodeBatch.nodes.get nk with
    | some n => rfl
    | none =>
      rw [hg, Option.none_or, or_self] at this
      rw [Option.none_or, Option.none_or, this]
  · intro k
    rw [hf2]
    exact e2 k
  · intro i
    rw [hf3]
    show i ∈ b.staleNodeIndexBatch.elems.foldl FSet.insert s'.staleNodes ↔ _
    rw [foldl_insert_mem, hp.marks]
    simp

/-- Writing the batch again reports an error when a mark, or values of two versions of a key, had been written. -/
theorem StoreInv.redo_err (hb : BatchSpec H v0 hist new lo s roots b) (hv : vs ++ vs' = b.nodeBatch.values.entries)
    (hm : ms ⊆ b.staleNodeIndexBatch.elems) (hp : Part s b vs ms s') (ho : s'.allowOverwrite = true)
    (hvs : ms ≠ [] ∨ ∃ k, ∃ a ∈ valuesOf vs k, ∃ b ∈ valuesOf vs k, a.1 ≠ b.1) :
    ∃ e, s'.writeTreeUpdateBatch b = .error (.err e) := by
  rw [writeTreeUpdateBatch_eq, writesOf, applyAll_three, ho, writeNodes_over]
  simp only [Except.bind]
  have hval : ∀ k, valuesOf b.nodeBatch.values.entries k = valuesOf vs k ++ valuesOf vs' k := by intro k; rw [← hv, valuesOf_append]
  obtain ⟨w1, w2⟩ := writeValues_push b.nodeBatch.values.entries s'.valueHistory
  by_cases hk : ∃ k, pushAll (vhGet s'.valueHistory k) (valuesOf b.nodeBatch.values.entries k) = none
  · rw [w2 hk]
    exact ⟨_, rfl⟩
  · rcases hvs with hms | ⟨k, a, h1, c, h2, hne⟩
    · have : ∀ k, ∃ g, pushAll (vhGet s'.valueHistory k) (valuesOf b.nodeBatch.values.entries k) = some g := by
        intro k
        cases hg : pushAll (vhGet s'.valueHistory k) (valuesOf b.nodeBatch.values.entries k) with
        | none => exact absurd ⟨k, hg⟩ hk
        | some g => exact ⟨g, rfl⟩
      choose g hg using this
      obtain ⟨vh', e1, _⟩ := w1 g hg
      rw [e1]
      match ms, hms, hm, hp with
      | i :: l, _, hm, hp =>
        simp only
        rw [putStale_taken (i := i) _ _ (hm (by simp)) ((hp.marks i).2 (.inr (by simp)))]
        exact ⟨_, rfl⟩
    · refine absurd ⟨k, ?_⟩ hk
      rw [hp.values, hval]
      refine pushAll_stuck _ _ _ ?_ ⟨a, h1, c, h2, hne⟩
      rw [← hval]; exact valuesOf_sorted hb.vsorted k

end

/-! computing the update again -/

theorem new_over' {r0 r : Reader D} {ver : Version}
    (hv : ver ≠ 0 ∨ (r.getNodeOption (.newEmptyPath preGenesisVersion)).isSome = (r0.getNodeOption (.newEmptyPath preGenesisVersion)).isSome) :
    (TreeCache.new r0 ver).over r = TreeCache.new r ver := by
  by_cases h0 : ver = 0
  · have h1 := hv.resolve_left (fun h => h h0)
    unfold TreeCache.new
    simp only [if_pos h0]
    cases e0 : r0.getNodeOption (.newEmptyPath preGenesisVersion) <;> cases e1 : r.getNodeOption (.newEmptyPath preGenesisVersion) <;>
      rw [e0, e1] at h1 <;> first | rfl | cases h1
  · exact new_over h0

theorem new_reader' (r0 : Reader D) (ver : Version) : (TreeCache.new r0 ver).reader = r0 := by
  unfold TreeCache.new
  simp only
  split
  · split <;> rfl
  · rfl

theorem batchPutValueSets_over' {L : NodeKey → Prop} {H : Hasher D} {m : Bool} {r0 r : Reader D}
    (h : ∀ nk n, r0.getNodeOption nk = some n → r.getNodeOption nk = some n ∨ (L nk ∧ r.getNodeOption nk = none))
    {sets : List (List (Key × Value))} {hashes : Option (List (Tree.HashCache D))} {ver : Version}
    (hv : ver ≠ 0 ∨ (r.getNodeOption (.newEmptyPath preGenesisVersion)).isSome = (r0.getNodeOption (.newEmptyPath preGenesisVersion)).isSome)
    {x : List D × TreeUpdateBatch D} (hx : Tree.batchPutValueSets H m r0 sets hashes ver = .ok x) :
    Tree.batchPutValueSets H m r sets hashes ver = .ok x ∨
      ((∃ nk, L nk) ∧ ∃ e, Tree.batchPutValueSets H m r sets hashes ver = .error (.err e)) := by
  have hw : Within L (TreeCache.new r0 ver) r := by intro nk n hn; rw [new_reader'] at hn; exact h nk n hn
  unfold Tree.batchPutValueSets at hx ⊢
  rw [← new_over' (r0 := r0) hv]
  exact (batchPutSets_over H m ver _ _ r hw).bind (g' := id) (fun a _ => Carries.same (fun _ _ => Carries.pure id a.into)) x hx

theorem batchPutValueSets_more' {H : Hasher D} {m : Bool} {r0 r : Reader D} (h : ∀ nk n, r0.getNodeOption nk = some n → r.getNodeOption nk = some n)
    {sets : List (List (Key × Value))} {hashes : Option (List (Tree.HashCache D))} {ver : Version}
    (hv : ver ≠ 0 ∨ (r.getNodeOption (.newEmptyPath preGenesisVersion)).isSome = (r0.getNodeOption (.newEmptyPath preGenesisVersion)).isSome)
    {x : List D × TreeUpdateBatch D} (hx : Tree.batchPutValueSets H m r0 sets hashes ver = .ok x) :
    Tree.batchPutValueSets H m r sets hashes ver = .ok x := by
  rcases batchPutValueSets_over' (L := fun _ => False) (fun nk n hn => .inl (h nk n hn)) hv hx with h | ⟨⟨_, h⟩, _⟩
  · exact h
  · exact h.elim

end Verif.Jmt
