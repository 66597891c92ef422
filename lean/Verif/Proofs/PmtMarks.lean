import Verif.Proofs.PatriciaThin
import Verif.Proofs.YellowPaper
import Verif.Spec.PmtMarks
/-!
The encoding of any tree is the one of the Yellow Paper for its entries, with branches at the paths of its thin branches; programs keep the
thin branches at marks.
-/

set_option autoImplicit false

namespace Verif.Pmt.Yellow
open Verif.Pmt PT

variable {K : Keccak}

/-! ### The encoding -/

/-- The list has exactly the thin branches of the tree. -/
def HasThin (t : PT) (B : List (List Nib)) : Prop := ∀ x, x ∈ B ↔ Thin t x

theorem HasThin.sub {p : List Nib} {s : PT} {B : List (List Nib)} (h : HasThin (.ext p s) B) : HasThin s (B.map (fun q => q.drop p.length)) := by
  intro x
  rw [List.mem_map]
  constructor
  · rintro ⟨q, hq, rfl⟩
    obtain ⟨y, rfl, hy⟩ := (h q).1 hq
    simpa using hy
  · intro hx
    exact ⟨p ++ x, (h _).2 ⟨x, rfl, hx⟩, by simp⟩

theorem mem_belowPaths {i : Nib} {B : List (List Nib)} {q : List Nib} : q ∈ belowPaths i B ↔ i :: q ∈ B := by
  unfold belowPaths
  rw [List.mem_filterMap]
  constructor
  · rintro ⟨p, he, h⟩
    cases p with
    | nil => cases h
    | cons a p =>
      simp only at h
      split at h
      · next ha => subst ha; cases h; exact he
      · cases h
  · intro h
    exact ⟨_, h, by simp⟩

theorem HasThin.child {cs : Nib → PT} {w : Option Bytes} {B : List (List Nib)} (h : HasThin (.branch cs w) B) (i : Nib) :
    HasThin (cs i) (belowPaths i B) := fun q => mem_belowPaths.trans (h (i :: q))

theorem mem_paths {t : PT} {B : List (List Nib)} {J : List (List Nib × Bytes)} (hB : HasThin t B) (hJ : Has t J) {x : List Nib} :
    x ∈ B ++ J.map Prod.fst ↔ Mark t x := by
  rw [List.mem_append, hB, Mark, or_comm]
  exact or_congr_left ⟨hJ.get, hJ.key⟩

/-- The paths of a branch have no common beginning, and there are two of them or a thin branch. -/
theorem branch_paths {cs : Nib → PT} {w : Option Bytes} {d : Nat} (hok : Ok (.branch cs w) d) :
    Thin (.branch cs w) [] ∨ ∃ x y, Mark (.branch cs w) x ∧ Mark (.branch cs w) y ∧ x ≠ y ∧ Apart x y := by
  by_cases h2 : Two cs w
  · have hm : ∀ i, cs i ≠ .empty → ∃ x, Mark (cs i) x := by
      intro i hi
      rcases hok.1 i with h' | h'
      · exact absurd h' hi
      · exact mark_exists h'.2 hi
    rcases h2 with ⟨i, j, hij, hi, hj⟩ | ⟨hv, i, hi⟩
    · obtain ⟨x, hx⟩ := hm i hi
      obtain ⟨y, hy⟩ := hm j hj
      exact .inr ⟨i :: x, j :: y, hx, hy, by simp [hij], .inr (.inr (by simpa using hij))⟩
    · obtain ⟨x, hx⟩ := hm i hi
      exact .inr ⟨[], i :: x, .inl hv, hx, by simp, .inl rfl⟩
  · exact .inl h2

theorem common_exact {l : List (List Nib)} {p : List Nib} (hp : ∀ a ∈ l, p <+: a) (hm : p ∈ l) : common l = p := by
  have hl : l ≠ [] := List.ne_nil_of_mem hm
  have h1 : p <+: common l := (prefix_common hl).2 hp
  have h2 := (prefix_common hl).1 (List.prefix_refl (common l)) p hm
  exact h2.eq_of_length_le h1.length_le

theorem structMarked_many {n : Nat} {B : List (List Nib)} {J : List (List Nib × Bytes)} (h : ¬ (B = [] ∧ J.length ≤ 1)) :
    structMarked K (n + 1) B J = (let c := common (B ++ J.map Prod.fst)
      if c ≠ [] then
        .list [.data (hp c false), cap K (structMarked K n (B.map (fun p => p.drop c.length)) (J.map (fun e => (e.1.drop c.length, e.2))))]
      else .list ((List.finRange 16).map (fun i => cap K (structMarked K n (belowPaths i B) (below i J))) ++ [.data (here J)])) := by
  rw [structMarked.eq_def]
  simp only
  rw [if_neg h]

/-- **The encoding of any tree.** -/
theorem enc_eq_structMarked (n : Nat) {t : PT} {B : List (List Nib)} {J : List (List Nib × Bytes)} (hok : Ok t (2 ^ 60)) (hB : HasThin t B)
    (h : Has t J) (hn : ∀ x, Mark t x → x.length < n) : enc K t = rlp (structMarked K n B J) := by
  have none : t = .empty → B = [] ∧ J = [] := by
    rintro rfl
    refine ⟨?_, ?_⟩
    · cases B with
      | nil => rfl
      | cons x B => exact ((hB x).1 (by simp)).elim
    · cases J with
      | nil => rfl
      | cons e J => have := (h.mem e.1 e.2).1 (by simp); cases this
  induction n generalizing t B J with
  | zero =>
    have ht : t = .empty := by
      by_contra hne
      obtain ⟨x, hx⟩ := mark_exists hok hne
      have := hn x hx; omega
    rw [ht]
    exact data_eq [] (by simp)
  | succ n ih =>
    have hlen := parts_length (K := K) hok
    cases t with
    | empty =>
      obtain ⟨rfl, rfl⟩ := none rfl
      exact data_eq [] (by simp)
    | leaf k v =>
      have hB0 : B = [] := by
        cases B with
        | nil => rfl
        | cons x B => exact ((hB x).1 (by simp)).elim
      have hJ : J = [(k, v)] := by
        have hall : ∀ e ∈ J, e = (k, v) := by
          rintro ⟨x, w⟩ he
          have := (h.mem x w).1 he
          simp only [PT.get] at this
          split at this
          · next hk => subst hk; cases this; rfl
          · cases this
        have hmem : (k, v) ∈ J := (h.mem k v).2 (by simp [PT.get])
        have hnd : J.Nodup := List.Nodup.of_map _ h.nodup
        match J, hall, hmem, hnd with
        | [e], hall, _, _ => rw [hall e (by simp)]
        | e :: e' :: t, hall, _, hnd =>
          rw [hall e (by simp), hall e' (by simp)] at hnd
          simp at hnd
      subst hJ
      subst hB0
      rw [structMarked, if_pos ⟨rfl, by simp⟩]
      simp only
      rw [← list_eq]
      · simp only [List.map_cons, List.map_nil, enc]
        rw [← hp_eq, data_eq _ (by have := compact_lt (leaf := true) hok.1; rw [pow_256]; omega),
          data_eq v (by have := hok.2.2; rw [pow_256]; omega)]
      · simp only [parts] at hlen
        simp only [List.map_cons, List.map_nil]
        rwa [← hp_eq, ← data_eq _ (by have := compact_lt (leaf := true) hok.1; rw [pow_256]; omega),
          ← data_eq v (by have := hok.2.2; rw [pow_256]; omega)]
    | ext p s =>
      obtain ⟨hp0, hpl, hb, hs⟩ := hok
      have hok : Ok (.ext p s) (2 ^ 60) := ⟨hp0, hpl, hb, hs⟩
      cases s with
      | branch cs w =>
        have hpre : ∀ a ∈ B ++ J.map Prod.fst, p <+: a := fun a ha => mark_ext_prefix ((mem_paths hB h).1 ha)
        have key : common (B ++ J.map Prod.fst) = p ∧ ¬ (B = [] ∧ J.length ≤ 1) := by
          rcases branch_paths hs with ht | ⟨x, y, hx, hy, hxy, hap⟩
          · have hm : p ∈ B := (hB p).2 ⟨[], by simp, ht⟩
            refine ⟨common_exact hpre (List.mem_append_left _ hm), ?_⟩
            rintro ⟨rfl, _⟩; cases hm
          · have kx := (mem_paths hB h).2 (mark_ext.2 hx)
            have ky := (mem_paths hB h).2 (mark_ext.2 hy)
            refine ⟨common_eq hpre kx ky hxy hap, ?_⟩
            rintro ⟨rfl, hl⟩
            simp only [List.nil_append] at kx ky
            match J, hl with
            | [], _ => cases kx
            | [e], _ =>
              simp only [List.map_cons, List.map_nil, List.mem_singleton] at kx ky
              exact hxy (List.append_cancel_left (kx.trans ky.symm))
        rw [structMarked_many key.2]
        simp only [key.1]
        rw [if_pos hp0]
        have hsn : ∀ x, Mark (.branch cs w) x → x.length < n := by
          intro x hx
          have h1 := hn _ (mark_ext.2 hx)
          have h3 : 0 < p.length := List.length_pos_of_ne_nil hp0
          rw [List.length_append] at h1; omega
        have hcap := cap_eq (K := K) _ _ (ih (ok_sub hok) hB.sub h.sub hsn (fun e => by cases e))
        have hd := data_eq (compact false p) (by have := compact_lt (leaf := false) hok.2.1; rw [pow_256]; omega)
        rw [hp_eq] at hd
        rw [← list_eq]
        · simp only [List.map_cons, List.map_nil]
          rw [← hcap, ← hd, ← hp_eq]; rfl
        · simp only [List.map_cons, List.map_nil]
          rw [← hcap, ← hd, ← hp_eq]; exact hlen
      | _ => exact hb.elim
    | branch cs w =>
      have key : common (B ++ J.map Prod.fst) = [] ∧ ¬ (B = [] ∧ J.length ≤ 1) := by
        rcases branch_paths hok with ht | ⟨x, y, hx, hy, hxy, hap⟩
        · have hm : [] ∈ B := (hB []).2 ht
          refine ⟨common_exact (fun a _ => List.nil_prefix) (List.mem_append_left _ hm), ?_⟩
          rintro ⟨rfl, _⟩; cases hm
        · have kx := (mem_paths hB h).2 hx
          have ky := (mem_paths hB h).2 hy
          refine ⟨common_eq (p := []) (fun a _ => List.nil_prefix) kx ky hxy hap, ?_⟩
          rintro ⟨rfl, hl⟩
          simp only [List.nil_append] at kx ky
          match J, hl with
          | [], _ => cases kx
          | [e], _ =>
            simp only [List.map_cons, List.map_nil, List.mem_singleton] at kx ky
            exact hxy (kx.trans ky.symm)
      rw [structMarked_many key.2]
      simp only [key.1]
      rw [if_neg (by simp)]
      have hcap : ∀ i, itemOf K (enc K (cs i)) = rlp (cap K (structMarked K n (belowPaths i B) (below i J))) := by
        intro i
        refine cap_eq _ _ (ih (ok_child hok i) (hB.child i) (h.child i) ?_ ?_)
        · intro x hx
          have := hn (i :: x) hx
          simp only [List.length_cons] at this
          omega
        · intro he
          refine ⟨?_, ?_⟩
          · rw [List.eq_nil_iff_forall_not_mem]
            intro x hx
            have := (hB.child i x).1 hx
            rw [he] at this; exact this
          · rw [List.eq_nil_iff_forall_not_mem]
            rintro ⟨x, v⟩ hx
            have := ((h.child i).mem x v).1 hx
            rw [he] at this; cases this
      have hv := value_eq hok.2
      have hparts : parts K (.branch cs w) =
          ((List.finRange 16).map (fun i => cap K (structMarked K n (belowPaths i B) (below i J))) ++ [Item.data (Yellow.here J)]).map rlp := by
        simp only [parts, List.map_append, List.map_map, List.map_cons, List.map_nil, h.here, hv]
        congr 1
        exact List.map_congr_left (fun i _ => hcap i)
      rw [← list_eq _ (by rw [← hparts]; exact hlen), ← hparts]
      rfl

theorem mem_le_sum {l : List Nat} {a : Nat} (h : a ∈ l) : a ≤ l.sum := by
  induction l with
  | nil => cases h
  | cons b t ih =>
    rw [List.sum_cons]
    rcases List.mem_cons.1 h with rfl | h
    · omega
    · have := ih h; omega

theorem markedRoot_eq {J : List (Bytes × Bytes)} {m : Spec.Map} (h : Lists J m) {t : PT} (ht : Agrees t m) (hok : Ok t (2 ^ 60))
    {B : List Bytes} (hB : HasThin t (B.map nibbles)) : K (enc K t) = markedRoot K B J := by
  unfold markedRoot
  rw [enc_eq_structMarked _ hok hB (h.has ht)]
  intro x hx
  rcases List.mem_append.1 ((mem_paths hB (h.has ht)).2 hx) with hx | hx
  · have := mem_le_sum (List.mem_map_of_mem (f := List.length) hx)
    omega
  · obtain ⟨e, he, rfl⟩ := List.mem_map.1 hx
    exact Nat.lt_succ_of_le (Nat.le_trans (length_le_sum he) (Nat.le_add_left _ _))

/-- Without marks the root is that of the Yellow Paper. -/
theorem structMarked_nil (n : Nat) (J : List (List Nib × Bytes)) : structMarked K n [] J = struct K n J := by
  induction n generalizing J with
  | zero => rfl
  | succ n ih =>
    match J with
    | [] => rfl
    | [e] => rfl
    | a :: b :: t =>
      rw [structMarked_many (by simp)]
      rw [struct]
      · simp only [List.nil_append, List.map_nil, belowPaths, List.filterMap_nil, ih]
      · intro h; cases h
      · intro p v h; cases h

theorem markedRoot_nil (J : List (Bytes × Bytes)) : markedRoot K [] J = trieRoot K J := by
  unfold markedRoot trieRoot
  rw [List.map_nil, structMarked_nil]
  simp

end Verif.Pmt.Yellow

namespace Verif.Pmt
open PT

variable {K : Keccak} {db : Db}

/-! ### Programs -/

/-- The paths of a set of keys. -/
def pathsOf (g : Bytes → Prop) (x : List Nib) : Prop := ∃ k, x = nibsOf k ∧ g k

/-- The thin branches are at marks. -/
def InMarks (g : Bytes → Prop) (t : PT) : Prop := Loose (pathsOf g) t

/-- A trie stands for a map, with thin branches at marks only. -/
def HandleM (K : Keccak) (db : Db) (tr : Trie) (x : Spec.Marked) : Prop := HandleQ K (InMarks x.marks) db tr x.map

/-- A root hash stands for a map, with thin branches at marks only. -/
def RootM (K : Keccak) (db : Db) (h : H256) (x : Spec.Marked) : Prop :=
  ∃ t, h = K (enc K t) ∧ Held K (InLog db) t ∧ Ok t (2 ^ 60) ∧ Agrees t x.map ∧ InMarks x.marks t

/-- The invariant of programs, with marks. -/
structure SysM (K : Keccak) (s : Sys) (σ : Spec.MState) : Prop where
  db : DbInv K s.db
  tries : Both (HandleM K s.db) s.tries σ.maps
  roots : Both (RootM K s.db) s.roots σ.snaps

theorem SysM.new : SysM K (Sys.new false) ⟨[], []⟩ := ⟨DbInv.new, Both.nil, Both.nil⟩

theorem HandleM.mono {db' : Db} (hl : ∀ b ∈ db.log, b ∈ db'.log) {tr : Trie} {x : Spec.Marked} (h : HandleM K db tr x) : HandleM K db' tr x := by
  obtain ⟨h0, t, h1, h2⟩ := h
  exact ⟨h0, t, h1.mono hl, h2⟩

theorem RootM.mono {db' : Db} (hl : ∀ b ∈ db.log, b ∈ db'.log) {h : H256} {x : Spec.Marked} (hr : RootM K db h x) : RootM K db' h x := by
  obtain ⟨t, h0, h1, h2⟩ := hr
  exact ⟨t, h0, ⟨hl _ h1.1, h1.2.mono hl⟩, h2⟩

/-- At a thin branch the entries call for none. -/
theorem inMarks_tidy {t : PT} {m : Spec.Map} (ha : Agrees t m) {g : Bytes → Prop} (h : InMarks g t) : InMarks (Spec.Marked.tidy ⟨m, g⟩).marks t := by
  refine loose_of_thin h fun y hy => ?_
  obtain ⟨k, rfl, hk⟩ := loose_thin h hy
  refine ⟨k, rfl, hk, ?_⟩
  obtain ⟨h1, h2⟩ := thin_lone hy
  rintro (h3 | ⟨h3, k', ⟨x, hx, rfl⟩, h4⟩)
  · exact h1 (ha.parts.2 h3)
  · simp only at h3 h4
    rw [← ha.get] at h3 h4
    rw [nibsOf_append, h2 (nibsOf x) (fun e => hx (nibsOf_inj e)) h3] at h4
    cases h4

theorem HandleM.insert (hR : Reads K (InLog db) db) {tr : Trie} {x : Spec.Marked} (h : HandleM K db tr x) {k v : Bytes}
    (hk : k.length ≤ 2 ^ 59) (hv : v.length < 2 ^ 60) (hne : v ≠ []) :
    ∃ tr', tr.insert db k v = .ok (tr', none) ∧ HandleM K db tr' (x.insert k v) := by
  obtain ⟨h0, t, h1, h2, h3, h4⟩ := h
  obtain ⟨n, e, hr⟩ := insertAt_root (v := v) hR h2 h1 (hops_ge (nibsOf k))
  unfold Trie.insert
  rw [if_neg (by simpa using hne), path_eq]
  dsimp only
  rw [e]
  exact ⟨_, rfl, h0, _, .node hr, ok_insert h2 (by rw [nibsOf_length]; omega) ⟨hne, hv⟩, h3.insert k v, inMarks_tidy (h3.insert k v) (loose_insert v _ h4)⟩

/-- A path that goes on from a key and is that of a key is that of a longer key. -/
theorem properPrefix_of_path {k k' : Bytes} {x : List Nib} (hx : x ≠ []) (e : nibsOf k ++ x = nibsOf k') : Spec.ProperPrefix k k' := by
  have hl := congrArg List.length e
  rw [List.length_append, nibsOf_length, nibsOf_length] at hl
  have hx0 : 0 < x.length := List.length_pos_iff.2 hx
  have e1 : nibsOf (k'.take k.length) = nibsOf k := by
    have h1 : nibsOf k' = nibsOf (k'.take k.length) ++ nibsOf (k'.drop k.length) := by rw [← nibsOf_append, List.take_append_drop]
    rw [h1] at e
    have hlen : (nibsOf (k'.take k.length)).length = (nibsOf k).length := by
      rw [nibsOf_length, nibsOf_length, List.length_take]; omega
    exact (List.append_inj e hlen.symm).1.symm
  have e2 := nibsOf_inj e1
  refine ⟨k'.drop k.length, ?_, ?_⟩
  · intro h0
    have := congrArg List.length h0
    rw [List.length_drop, List.length_nil] at this
    omega
  · conv => lhs; rw [← List.take_append_drop k.length k', e2]

theorem mark_path {t : PT} {x : Spec.Marked} (ha : Agrees t x.map) (hm : InMarks x.marks t) {y : List Nib} (h : Mark t y) :
    ∃ k, y = nibsOf k ∧ ((x.map k).isSome ∨ x.marks k) := by
  rcases h with h | h
  · obtain ⟨k, rfl⟩ := ha.keys y h
    exact ⟨k, rfl, .inl (by rw [← ha.get]; exact h)⟩
  · obtain ⟨k, rfl, hk⟩ := loose_thin hm h
    exact ⟨k, rfl, .inr hk⟩

theorem inMarks_del {t r : PT} {x : Spec.Marked} (ha : Agrees t x.map) (hm : InMarks x.marks t) {d : Nat} (hok : Ok t d) {k : Bytes} {b : Bool}
    (hd : Del t (nibsOf k) r b) : InMarks (x.remove k).marks r := by
  refine inMarks_tidy (ha.del hd) ?_
  by_cases hc : (x.map k).isSome ∧ ∃ k', Spec.ProperPrefix k k' ∧ ((x.map k').isSome ∨ x.marks k')
  · exact loose_del hd hok (loose_mono hm (fun y ⟨k', e, h⟩ => ⟨k', e, .inl h⟩)) (.inl ⟨k, rfl, .inr ⟨rfl, hc⟩⟩)
  · refine loose_mono (loose_del hd hok hm (.inr ?_)) (fun y ⟨k', e, h⟩ => ⟨k', e, .inl h⟩)
    rw [not_and_or] at hc
    refine hc.imp (fun h => ?_) (fun h y hy hmk => ?_)
    · rw [ha.get]
      exact Option.not_isSome_iff_eq_none.1 h
    · obtain ⟨k', e, h'⟩ := mark_path ha hm hmk
      exact h ⟨k', properPrefix_of_path hy e, h'⟩

/-- What is known of the tree of a trie and of a removal from it. -/
theorem HandleM.remove (hR : Reads K (InLog db) db) {tr : Trie} {x : Spec.Marked} (h : HandleM K db tr x) (k : Bytes) :
    ∃ tr' b, tr.remove db k = .ok (tr', .ok b) ∧ HandleM K db tr' (x.remove k) := by
  obtain ⟨h0, t, h1, h2, h3, h4⟩ := h
  obtain ⟨n, b, r, e, hd, hr, hn⟩ := deleteAt_root hR h2 h1 (hops_ge (nibsOf k))
  unfold Trie.remove
  rw [path_eq]
  dsimp only
  rw [e]
  exact ⟨_, b, rfl, h0, r, .node hr, ok_del hd h2, h3.del hd, inMarks_del h3 h4 h2 hd⟩

theorem mupdate_some {σ : Spec.MState} {i : Nat} {x : Spec.Marked} (h : σ.maps[i]? = some x) (f : Spec.Marked → Spec.Marked) :
    σ.update i f = { σ with maps := σ.maps.set i (f x) } := by
  unfold Spec.MState.update
  rw [h]

theorem mupdate_none {σ : Spec.MState} {i : Nat} (h : σ.maps[i]? = none) (f : Spec.Marked → Spec.Marked) : σ.update i f = σ := by
  unfold Spec.MState.update
  rw [h]

theorem SysM.step {s s' : Sys} {σ : Spec.MState} (h : SysM K s σ) {op : Op} (hop : Spec.Fits op) {r : Ret} (hs : s.step K op = .ok (s', r))
    (hnc : NoClash K s'.db.log) : SysM K s' (Spec.mstep σ op) := by
  have hR := h.db.reads (hnc.subset (Sys.step_log hs))
  cases op with
  | new =>
    cases hs
    refine ⟨h.db, h.tries.append ?_, h.roots⟩
    exact ⟨(by intro e he; cases he), PT.empty, RepRoot.node Rep.empty, trivial, Agrees.empty, trivial⟩
  | openAt j =>
    simp only [Sys.step, Spec.mstep] at hs ⊢
    rcases hj : s.roots[j]? with _ | y
    · rw [hj] at hs
      cases hs
      rw [h.roots.none.1 hj]
      exact h
    · rw [hj] at hs
      cases hs
      obtain ⟨m, hm, t, e, h1, h2, h3, h4⟩ := h.roots.some hj
      rw [hm]
      refine ⟨h.db, h.tries.append ?_, h.roots⟩
      refine ⟨(by intro e he; cases he), t, ?_, h2, h3, h4⟩
      simp only [Trie.atRoot, e]
      exact .hash h1
  | insert i k v =>
    simp only [Sys.step, Spec.mstep] at hs ⊢
    rcases hi : s.tries[i]? with _ | tr
    · rw [hi] at hs
      cases hs
      rw [mupdate_none (h.tries.none.1 hi)]
      exact h
    · rw [hi] at hs
      obtain ⟨m, hm, hinv⟩ := h.tries.some hi
      rw [mupdate_some hm]
      simp only [Sys.insert] at hs
      by_cases hv : v = []
      · subst hv
        have e : tr.insert s.db k [] = .ok (tr, some "value provided for key is empty") := rfl
        rw [e] at hs
        cases hs
        exact ⟨h.db, h.tries.set i hinv, h.roots⟩
      · obtain ⟨tr', e, hinv'⟩ := HandleM.insert hR hinv hop.1 hop.2 hv
        rw [e] at hs
        cases hs
        refine ⟨h.db, h.tries.set i ?_, h.roots⟩
        rw [if_neg hv]
        exact hinv'
  | remove i k =>
    simp only [Sys.step, Spec.mstep] at hs ⊢
    rcases hi : s.tries[i]? with _ | tr
    · rw [hi] at hs
      cases hs
      rw [mupdate_none (h.tries.none.1 hi)]
      exact h
    · rw [hi] at hs
      obtain ⟨m, hm, hinv⟩ := h.tries.some hi
      rw [mupdate_some hm]
      obtain ⟨tr', b, e, hinv'⟩ := HandleM.remove hR hinv k
      simp only [Sys.remove] at hs
      rw [e] at hs
      cases hs
      exact ⟨h.db, h.tries.set i hinv', h.roots⟩
  | commit i =>
    simp only [Sys.step, Spec.mstep] at hs ⊢
    rcases hi : s.tries[i]? with _ | tr
    · rw [hi] at hs
      cases hs
      rw [h.tries.none.1 hi]
      exact h
    · rw [hi] at hs
      obtain ⟨m, hm, hinv⟩ := h.tries.some hi
      rw [hm]
      obtain ⟨tr', db', t, e, g1, g2, g3, g4, g5, g6, g7, g8⟩ := Trie.commit_q h.db hinv
      simp only [Sys.commit] at hs
      rw [e] at hs
      cases hs
      refine ⟨g1, ?_, ?_⟩
      · refine (h.tries.mono (fun _ _ h => h.mono g2)).set_left i fun y hy => ?_
        rw [hm] at hy
        cases hy
        refine ⟨(by rw [g3]; intro e he; cases he), t, ?_, g5, g6, g7⟩
        rw [g8 hnc]
        exact .node (rep_top g4.2)
      · exact (h.roots.mono (fun _ _ h => h.mono g2)).append ⟨t, rfl, g4, g5, g6, g7⟩
  | proof i k =>
    simp only [Sys.step, Spec.mstep] at hs ⊢
    rcases hi : s.tries[i]? with _ | tr
    · rw [hi] at hs
      cases hs
      exact h
    · rw [hi] at hs
      obtain ⟨m, hm, hinv⟩ := h.tries.some hi
      simp only [Sys.proof] at hs
      rcases Trie.getProof_q hR hinv k with ⟨tr', l, e, hinv'⟩ | ⟨hh, msg, e⟩
      · rw [e] at hs
        cases hs
        refine ⟨h.db, h.tries.set_left i fun y hy => ?_, h.roots⟩
        rw [hm] at hy
        cases hy
        exact hinv'
      · rw [e] at hs; cases hs

theorem SysM.run {s s' : Sys} {σ : Spec.MState} {ops : List Op} {rs : List Ret} (h : SysM K s σ) (hfit : ∀ op ∈ ops, Spec.Fits op)
    (hrun : s.run K ops = .ok (s', rs)) (hnc : NoClash K s'.db.log) : SysM K s' (ops.foldl Spec.mstep σ) := by
  induction ops generalizing s σ rs with
  | nil => cases hrun; exact h
  | cons op t ih =>
    obtain ⟨s1, r, rs', h1, h2, _⟩ := Sys.run_cons hrun
    exact ih (h.step (hfit op (by simp)) h1 (hnc.subset (Sys.run_log h2))) (fun o ho => hfit o (by simp [ho])) h2

/-- The thin branches of a tree in marks are at a list of marks. -/
theorem thin_marks {t : PT} {g : Bytes → Prop} (h : InMarks g t) :
    ∃ B : List Bytes, (∀ k ∈ B, g k) ∧ Yellow.HasThin t (B.map Yellow.nibbles) := by
  obtain ⟨L, hL⟩ := thin_list t
  have : ∀ l : List (List Nib), (∀ x ∈ l, pathsOf g x) → ∃ B : List Bytes, (∀ k ∈ B, g k) ∧ B.map Yellow.nibbles = l := by
    intro l
    induction l with
    | nil => exact fun _ => ⟨[], by simp, rfl⟩
    | cons x l ih =>
      intro hl
      obtain ⟨B, h1, h2⟩ := ih (fun y hy => hl y (by simp [hy]))
      obtain ⟨k, e, hk⟩ := hl x (by simp)
      refine ⟨k :: B, ?_, ?_⟩
      · intro y hy
        rcases List.mem_cons.1 hy with rfl | hy
        · exact hk
        · exact h1 y hy
      · rw [List.map_cons, h2, Yellow.nibbles_eq, e]
  obtain ⟨B, h1, h2⟩ := this L (fun x hx => loose_thin h ((hL x).1 hx))
  exact ⟨B, h1, by rw [h2]; exact hL⟩

theorem onPath_iff {t : PT} {m : Spec.Map} (ha : Agrees t m) {B : List Bytes} (hB : Yellow.HasThin t (B.map Yellow.nibbles)) (x : List Nib) :
    Spec.OnPath m B x ↔ Mark t x := by
  constructor
  · rintro ⟨k, rfl, h | h⟩
    · exact .inl (by rw [Yellow.nibbles_eq, ha.get]; exact h)
    · exact .inr ((hB _).1 (List.mem_map_of_mem h))
  · rintro (h | h)
    · obtain ⟨k, rfl⟩ := ha.keys x h
      exact ⟨k, (Yellow.nibbles_eq k).symm, .inl (by rw [← ha.get]; exact h)⟩
    · obtain ⟨k, hk, rfl⟩ := List.mem_map.1 ((hB _).2 h)
      exact ⟨k, rfl, .inr hk⟩

/-- What `remove` returns. -/
theorem remove_reports (hR : Reads K (InLog db) db) {tr : Trie} {t : PT} (h1 : RepRoot K (InLog db) tr.root t) (h2 : Ok t (2 ^ 60))
    {m : Spec.Map} (h3 : Agrees t m) {B : List Bytes} (hB : Yellow.HasThin t (B.map Yellow.nibbles)) (k : Bytes) :
    ∃ tr' b, tr.remove db k = .ok (tr', .ok b) ∧ (b = true ↔ (m k).isSome ∨ k ∈ B ∨ Spec.Forks m B k) := by
  obtain ⟨n, b, r, e, hd, hr, hn⟩ := deleteAt_root hR h2 h1 (hops_ge (nibsOf k))
  unfold Trie.remove
  rw [path_eq]
  dsimp only
  rw [e]
  refine ⟨_, b, rfl, (del_reports hd h2).trans ?_⟩
  rw [h3.get]
  refine or_congr_right (or_congr ?_ ?_)
  · rw [← hB, ← Yellow.nibbles_eq]
    constructor
    · intro hx
      obtain ⟨k', hk, e⟩ := List.mem_map.1 hx
      rw [Yellow.nibbles_eq, Yellow.nibbles_eq] at e
      rw [← nibsOf_inj e]; exact hk
    · exact fun hx => List.mem_map_of_mem hx
  · unfold PT.Forks Spec.Forks
    simp only [onPath_iff h3 hB, Yellow.nibbles_eq]

/-- Forgetting the marks, one call. -/
theorem mstep_maps {σ : Spec.MState} {τ : Spec.State} (h1 : σ.maps.map (fun x => x.map) = τ.maps) (h2 : σ.snaps.map (fun x => x.map) = τ.snaps)
    (op : Op) : (Spec.mstep σ op).maps.map (fun x => x.map) = (Spec.step τ op).maps ∧
      (Spec.mstep σ op).snaps.map (fun x => x.map) = (Spec.step τ op).snaps := by
  have upd : ∀ (i : Nat) (f : Spec.Marked → Spec.Marked) (g : Spec.Map → Spec.Map), (∀ x, (f x).map = g x.map) →
      (σ.update i f).maps.map (fun x => x.map) = (τ.update i g).maps ∧ (σ.update i f).snaps.map (fun x => x.map) = (τ.update i g).snaps := by
    intro i f g hfg
    unfold Spec.MState.update Spec.State.update
    rw [← h1, List.getElem?_map]
    rcases σ.maps[i]? with _ | x
    · exact ⟨h1, h2⟩
    · refine ⟨?_, h2⟩
      simp only [Option.map_some, List.map_set, hfg, h1]
  cases op with
  | new => exact ⟨by simp [Spec.mstep, Spec.step, h1], h2⟩
  | openAt j =>
    simp only [Spec.mstep, Spec.step]
    rw [← h2, List.getElem?_map]
    rcases σ.snaps[j]? with _ | x
    · exact ⟨h1, h2⟩
    · exact ⟨by simp [h1], by simp [h2]⟩
  | insert i k v =>
    refine upd i _ _ fun x => ?_
    split <;> rfl
  | remove i k => exact upd i _ _ fun x => rfl
  | commit i =>
    simp only [Spec.mstep, Spec.step]
    rw [← h1, List.getElem?_map]
    rcases σ.maps[i]? with _ | x
    · exact ⟨h1, h2⟩
    · exact ⟨by simp [h1], by simp [h2]⟩
  | proof i k => exact ⟨h1, h2⟩

/-- Forgetting the marks. -/
theorem mrun_maps (ops : List Op) : (Spec.mrun ops).maps.map (fun x => x.map) = (Spec.run ops).maps ∧
    (Spec.mrun ops).snaps.map (fun x => x.map) = (Spec.run ops).snaps := by
  have key : ∀ (ops : List Op) (σ : Spec.MState) (τ : Spec.State), σ.maps.map (fun x => x.map) = τ.maps → σ.snaps.map (fun x => x.map) = τ.snaps →
      (ops.foldl Spec.mstep σ).maps.map (fun x => x.map) = (ops.foldl Spec.step τ).maps ∧
      (ops.foldl Spec.mstep σ).snaps.map (fun x => x.map) = (ops.foldl Spec.step τ).snaps := by
    intro ops
    induction ops with
    | nil => exact fun σ τ h1 h2 => ⟨h1, h2⟩
    | cons op ops ih => exact fun σ τ h1 h2 => ih _ _ (mstep_maps h1 h2 op).1 (mstep_maps h1 h2 op).2
  exact key ops ⟨[], []⟩ ⟨[], []⟩ rfl rfl

/-- Where the tries and snapshots after an update come from. -/
theorem mem_mupdate {σ : Spec.MState} {i : Nat} {f : Spec.Marked → Spec.Marked} {y : Spec.Marked}
    (hy : y ∈ (σ.update i f).maps ++ (σ.update i f).snaps) :
    y ∈ σ.maps ++ σ.snaps ∨ ∃ z, σ.maps[i]? = some z ∧ y = f z := by
  unfold Spec.MState.update at hy
  rcases hm : σ.maps[i]? with _ | z
  · rw [hm] at hy; exact .inl hy
  · rw [hm] at hy
    rcases List.mem_append.1 hy with hy | hy
    · rcases List.mem_or_eq_of_mem_set hy with hy | hy
      · exact .inl (List.mem_append_left _ hy)
      · exact .inr ⟨z, rfl, hy⟩
    · exact .inl (List.mem_append_right _ hy)

/-- A mark after a call is there before it, or the call removes it from a trie in which it is present, no entries part at it and it is a proper prefix
of a key or a mark. -/
theorem mark_step {σ : Spec.MState} {op : Op} {y : Spec.Marked} (hy : y ∈ (Spec.mstep σ op).maps ++ (Spec.mstep σ op).snaps) {k : Bytes}
    (hk : y.marks k) : (∃ z ∈ σ.maps ++ σ.snaps, z.marks k) ∨ ∃ i z k', op = .remove i k ∧ σ.maps[i]? = some z ∧ (z.map k).isSome ∧
      ¬ Spec.Parts z.map k ∧ Spec.ProperPrefix k k' ∧ ((z.map k').isSome ∨ z.marks k') := by
  have old : ∀ {y}, y ∈ σ.maps ++ σ.snaps → y.marks k → (∃ z ∈ σ.maps ++ σ.snaps, z.marks k) ∨
      ∃ i z k', op = .remove i k ∧ σ.maps[i]? = some z ∧ (z.map k).isSome ∧ ¬ Spec.Parts z.map k ∧ Spec.ProperPrefix k k' ∧
        ((z.map k').isSome ∨ z.marks k') :=
    fun hy hk => .inl ⟨_, hy, hk⟩
  cases op with
  | new =>
    rcases List.mem_append.1 hy with hy | hy
    · rcases List.mem_append.1 hy with hy | hy
      · exact old (List.mem_append_left _ hy) hk
      · rw [List.mem_singleton.1 hy] at hk; exact hk.elim
    · exact old (List.mem_append_right _ hy) hk
  | openAt j =>
    simp only [Spec.mstep] at hy
    rcases hj : σ.snaps[j]? with _ | z
    · rw [hj] at hy; exact old hy hk
    · rw [hj] at hy
      rcases List.mem_append.1 hy with hy | hy
      · rcases List.mem_append.1 hy with hy | hy
        · exact old (List.mem_append_left _ hy) hk
        · rw [List.mem_singleton.1 hy] at hk
          exact old (List.mem_append_right _ (List.mem_of_getElem? hj)) hk
      · exact old (List.mem_append_right _ hy) hk
  | insert i a v =>
    rcases mem_mupdate hy with hy | ⟨z, hz, rfl⟩
    · exact old hy hk
    · have hz' : z ∈ σ.maps ++ σ.snaps := List.mem_append_left _ (List.mem_of_getElem? hz)
      split at hk
      · exact old hz' hk
      · exact old hz' hk.1
  | remove i a =>
    rcases mem_mupdate hy with hy | ⟨z, hz, rfl⟩
    · exact old hy hk
    · rcases hk with ⟨hk | ⟨rfl, h0, k', h1, h2⟩, hn⟩
      · exact old (List.mem_append_left _ (List.mem_of_getElem? hz)) hk
      · refine .inr ⟨i, z, k', rfl, hz, h0, fun hp => hn (.inl ?_), h1, h2⟩
        obtain ⟨x, y, s, t, hxy, hs, ht⟩ := hp
        refine ⟨x, y, s, t, hxy, ?_, ?_⟩ <;> simpa [Spec.Map.set]
  | commit i =>
    simp only [Spec.mstep] at hy
    rcases hi : σ.maps[i]? with _ | z
    · rw [hi] at hy; exact old hy hk
    · rw [hi] at hy
      rcases List.mem_append.1 hy with hy | hy
      · exact old (List.mem_append_left _ hy) hk
      · rcases List.mem_append.1 hy with hy | hy
        · exact old (List.mem_append_right _ hy) hk
        · rw [List.mem_singleton.1 hy] at hk
          exact old (List.mem_append_left _ (List.mem_of_getElem? hi)) hk
  | proof i a => exact old hy hk

/-- Where the tries and snapshots after a call come from. -/
theorem mem_mstep {σ : Spec.MState} {op : Op} {y : Spec.Marked} (hy : y ∈ (Spec.mstep σ op).maps ++ (Spec.mstep σ op).snaps) :
    y ∈ σ.maps ++ σ.snaps ∨ y = ⟨fun _ => none, fun _ => False⟩ ∨ ∃ z, y = Spec.Marked.tidy z := by
  cases op with
  | new =>
    rcases List.mem_append.1 hy with hy | hy
    · rcases List.mem_append.1 hy with hy | hy
      · exact .inl (List.mem_append_left _ hy)
      · exact .inr (.inl (List.mem_singleton.1 hy))
    · exact .inl (List.mem_append_right _ hy)
  | openAt j =>
    simp only [Spec.mstep] at hy
    rcases hj : σ.snaps[j]? with _ | z
    · rw [hj] at hy; exact .inl hy
    · rw [hj] at hy
      rcases List.mem_append.1 hy with hy | hy
      · rcases List.mem_append.1 hy with hy | hy
        · exact .inl (List.mem_append_left _ hy)
        · rw [List.mem_singleton.1 hy]
          exact .inl (List.mem_append_right _ (List.mem_of_getElem? hj))
      · exact .inl (List.mem_append_right _ hy)
  | insert i a v =>
    rcases mem_mupdate hy with hy | ⟨z, hz, rfl⟩
    · exact .inl hy
    · split
      · exact .inl (List.mem_append_left _ (List.mem_of_getElem? hz))
      · exact .inr (.inr ⟨_, rfl⟩)
  | remove i a =>
    rcases mem_mupdate hy with hy | ⟨z, hz, rfl⟩
    · exact .inl hy
    · exact .inr (.inr ⟨_, rfl⟩)
  | commit i =>
    simp only [Spec.mstep] at hy
    rcases hi : σ.maps[i]? with _ | z
    · rw [hi] at hy; exact .inl hy
    · rw [hi] at hy
      rcases List.mem_append.1 hy with hy | hy
      · exact .inl (List.mem_append_left _ hy)
      · rcases List.mem_append.1 hy with hy | hy
        · exact .inl (List.mem_append_right _ hy)
        · rw [List.mem_singleton.1 hy]
          exact .inl (List.mem_append_left _ (List.mem_of_getElem? hi))
  | proof i a => exact .inl hy

/-- Without marks, paths fork where entries part. -/
theorem forks_nil {m : Spec.Map} {k : Bytes} : Spec.Forks m [] k ↔ Spec.Parts m k := by
  have path : ∀ {x : List Nib}, Spec.OnPath m [] x ↔ ∃ k, x = nibsOf k ∧ (m k).isSome := by
    intro x
    unfold Spec.OnPath
    simp only [List.not_mem_nil, or_false, Yellow.nibbles_eq]
  constructor
  · rintro ⟨i, j, x, y, hij, hx, hy⟩
    have key : ∀ {i : Nib} {x : List Nib}, Spec.OnPath m [] (Yellow.nibbles k ++ i :: x) → ∃ (b : UInt8) (s : Bytes), b.toNat / 16 = i.val ∧
        (m (k ++ b :: s)).isSome := by
      intro i x hx
      obtain ⟨k', e, hk'⟩ := path.1 hx
      rw [Yellow.nibbles_eq] at e
      obtain ⟨y, hy, rfl⟩ := properPrefix_of_path (x := i :: x) (by simp) e
      rw [nibsOf_append] at e
      have e := List.append_cancel_left e
      cases y with
      | nil => exact absurd rfl hy
      | cons b s =>
        rw [nibsOf_byte] at e
        injection e with e _
        exact ⟨b, s, by rw [e], hk'⟩
    obtain ⟨a, s, ha, hs⟩ := key hx
    obtain ⟨b, u, hb, hu⟩ := key hy
    exact ⟨a, b, s, u, by rw [ha, hb]; exact fun e => hij (Fin.ext e), hs, hu⟩
  · rintro ⟨a, b, s, u, hab, hs, hu⟩
    refine ⟨⟨a.toNat / 16, by have := a.toNat_lt; omega⟩, ⟨b.toNat / 16, by have := b.toNat_lt; omega⟩, ⟨a.toNat % 16, by omega⟩ :: nibsOf s,
      ⟨b.toNat % 16, by omega⟩ :: nibsOf u, fun e => hab (congrArg Fin.val e), path.2 ⟨_, ?_, hs⟩, path.2 ⟨_, ?_, hu⟩⟩
    · rw [nibsOf_append, nibsOf_byte, Yellow.nibbles_eq]
    · rw [nibsOf_append, nibsOf_byte, Yellow.nibbles_eq]

theorem unmarked_of_plain {ops : List Op} (hp : Spec.Plain ops) (x : Spec.Marked) (hx : x ∈ (Spec.mrun ops).maps ++ (Spec.mrun ops).snaps)
    (k : Bytes) : ¬ x.marks k := by
  have key : ∀ (ops : List Op) (σ : Spec.MState) (τ : Spec.State), σ.maps.map (fun x => x.map) = τ.maps → σ.snaps.map (fun x => x.map) = τ.snaps →
      (∀ x ∈ σ.maps ++ σ.snaps, ∀ k, ¬ x.marks k) → Spec.PlainFrom τ ops →
      ∀ x ∈ (ops.foldl Spec.mstep σ).maps ++ (ops.foldl Spec.mstep σ).snaps, ∀ k, ¬ x.marks k := by
    intro ops
    induction ops with
    | nil => exact fun σ τ _ _ h _ => h
    | cons op ops ih =>
      intro σ τ h1 h2 h hpl
      refine ih _ _ (mstep_maps h1 h2 op).1 (mstep_maps h1 h2 op).2 (fun y hy k hk => ?_) hpl.2
      rcases mark_step hy hk with ⟨z, hz, hk⟩ | ⟨i, z, k', rfl, hz, h5, h6, h3, h4 | h4⟩
      · exact h z hz k hk
      · rcases hpl.1 z.map (by rw [← h1, List.getElem?_map, hz]; rfl) with h7 | h7 | h7
        · rw [h7] at h5; cases h5
        · rw [h7 k' h3] at h4; cases h4
        · exact h6 h7
      · exact h z (List.mem_append_left _ (List.mem_of_getElem? hz)) k' h4
  exact key ops ⟨[], []⟩ ⟨[], []⟩ rfl rfl (by simp) hp x hx k

end Verif.Pmt
