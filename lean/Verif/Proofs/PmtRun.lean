import Verif.Proofs.PmtPath
import Verif.Spec.PmtMap
/-!
Programs over tries sharing an archive database: the invariant relating them to maps.
-/

set_option autoImplicit false

namespace Verif.Pmt

open PT

variable {K : Keccak} {S : Bytes → Prop} {db : Db} {P : Prop}

/-- The entries of a tree are those of a map. -/
structure Agrees (t : PT) (m : Spec.Map) : Prop where
  get : ∀ k, t.get (nibsOf k) = m k
  keys : ∀ x, (t.get x).isSome → ∃ k, x = nibsOf k

theorem Agrees.empty : Agrees .empty (fun _ => none) := ⟨fun _ => rfl, fun x h => by cases h⟩

theorem nibsOf_inj_iff {a b : Bytes} : nibsOf a = nibsOf b ↔ a = b := ⟨nibsOf_inj, fun h => by rw [h]⟩

theorem Agrees.insert {t : PT} {m : Spec.Map} (h : Agrees t m) (k v : Bytes) : Agrees (t.insert v (nibsOf k)) (m.set k (some v)) := by
  constructor
  · intro x
    rw [get_insert]
    simp only [Spec.Map.set, nibsOf_inj_iff, h.get]
  · intro x hx
    rw [get_insert] at hx
    split at hx
    · next h' => exact ⟨k, h'⟩
    · exact h.keys x hx

theorem Agrees.del {t r : PT} {m : Spec.Map} (h : Agrees t m) {k : Bytes} {b : Bool} (hd : Del t (nibsOf k) r b) : Agrees r (m.set k none) := by
  constructor
  · intro x
    rw [get_del hd]
    simp only [Spec.Map.set, nibsOf_inj_iff, h.get]
  · intro x hx
    rw [get_del hd] at hx
    split at hx
    · cases hx
    · exact h.keys x hx

theorem Agrees.unique {t u : PT} {m : Spec.Map} (ht : Agrees t m) (hu : Agrees u m) (ct : Canon t) (cu : Canon u) : t = u := by
  refine canon_unique ct cu fun x => ?_
  by_cases hx : ∃ k, x = nibsOf k
  · obtain ⟨k, rfl⟩ := hx
    rw [ht.get, hu.get]
  · have h1 : ¬ (t.get x).isSome := fun h => hx (ht.keys x h)
    have h2 : ¬ (u.get x).isSome := fun h => hx (hu.keys x h)
    rw [Option.not_isSome_iff_eq_none.1 h1, Option.not_isSome_iff_eq_none.1 h2]

/-- A trie stands for a map, by a tree with a property. -/
def HandleQ (K : Keccak) (Q : PT → Prop) (db : Db) (tr : Trie) (m : Spec.Map) : Prop :=
  (∀ e ∈ tr.cache, EntryOk K e) ∧ ∃ t, RepRoot K (InLog db) tr.root t ∧ Ok t (2 ^ 60) ∧ Agrees t m ∧ Q t

/-- A trie stands for a map (and is in normal form, if `P`). -/
def HandleInv (K : Keccak) (P : Prop) (db : Db) (tr : Trie) (m : Spec.Map) : Prop := HandleQ K (fun t => P → Canon t) db tr m

/-- A root hash stands for a map. -/
def RootInv (K : Keccak) (P : Prop) (db : Db) (h : H256) (m : Spec.Map) : Prop :=
  ∃ t, h = K (enc K t) ∧ Held K (InLog db) t ∧ Ok t (2 ^ 60) ∧ Agrees t m ∧ (P → Canon t)

/-- The elements of two lists are related one by one. -/
def Both {α β : Type} (R : α → β → Prop) (a : List α) (b : List β) : Prop :=
  a.length = b.length ∧ ∀ (i : Nat) x y, a[i]? = Option.some x → b[i]? = Option.some y → R x y

namespace Both
variable {α β : Type} {R R' : α → β → Prop} {a : List α} {b : List β}

theorem nil : Both R [] [] := ⟨rfl, fun i x y h => by simp at h⟩

theorem mono (h : Both R a b) (hR : ∀ x y, R x y → R' x y) : Both R' a b := ⟨h.1, fun i x y hx hy => hR _ _ (h.2 i x y hx hy)⟩

theorem append (h : Both R a b) {x : α} {y : β} (hxy : R x y) : Both R (a ++ [x]) (b ++ [y]) := by
  refine ⟨by simp [h.1], fun i u v hu hv => ?_⟩
  by_cases hi : i < a.length
  · rw [List.getElem?_append_left hi] at hu
    rw [List.getElem?_append_left (by rw [← h.1]; exact hi)] at hv
    exact h.2 i u v hu hv
  · rw [List.getElem?_append_right (by omega)] at hu
    rw [List.getElem?_append_right (by rw [← h.1]; omega)] at hv
    rw [← h.1] at hv
    cases hk : i - a.length with
    | zero => rw [hk] at hu hv; cases hu; cases hv; exact hxy
    | succ n => rw [hk] at hu; simp at hu

theorem set (h : Both R a b) (i : Nat) {x : α} {y : β} (hxy : R x y) : Both R (a.set i x) (b.set i y) := by
  refine ⟨by simp [h.1], fun j u v hu hv => ?_⟩
  rw [List.getElem?_set] at hu hv
  by_cases hij : i = j
  · subst hij
    simp only [if_true] at hu hv
    split at hu
    · split at hv
      · cases hu; cases hv; exact hxy
      · cases hv
    · cases hu
  · simp only [hij, if_false] at hu hv
    exact h.2 j u v hu hv

theorem set_left (h : Both R a b) (i : Nat) {x : α} (hx : ∀ y, b[i]? = some y → R x y) : Both R (a.set i x) b := by
  refine ⟨by simp [h.1], fun j u v hu hv => ?_⟩
  rw [List.getElem?_set] at hu
  by_cases hij : i = j
  · subst hij
    simp only [if_true] at hu
    split at hu
    · cases hu; exact hx v hv
    · cases hu
  · simp only [hij, if_false] at hu
    exact h.2 j u v hu hv

theorem none (h : Both R a b) {i : Nat} : a[i]? = none ↔ b[i]? = none := by
  simp only [List.getElem?_eq_none_iff, h.1]

theorem some (h : Both R a b) {i : Nat} {x : α} (hx : a[i]? = some x) : ∃ y, b[i]? = some y ∧ R x y := by
  cases hb : b[i]? with
  | none => rw [h.none.2 hb] at hx; cases hx
  | some y => exact ⟨y, rfl, h.2 i x y hx hb⟩

end Both

/-- The invariant of programs. -/
structure SysInv (K : Keccak) (P : Prop) (s : Sys) (σ : Spec.State) : Prop where
  db : DbInv K s.db
  tries : Both (HandleInv K P s.db) s.tries σ.maps
  roots : Both (RootInv K P s.db) s.roots σ.snaps

theorem SysInv.new : SysInv K P (Sys.new false) ⟨[], []⟩ := ⟨DbInv.new, Both.nil, Both.nil⟩

theorem HandleInv.mono {db' : Db} (hl : ∀ b ∈ db.log, b ∈ db'.log) {tr : Trie} {m : Spec.Map} (h : HandleInv K P db tr m) :
    HandleInv K P db' tr m := by
  obtain ⟨h0, t, h1, h2⟩ := h
  exact ⟨h0, t, h1.mono hl, h2⟩

theorem RootInv.mono {db' : Db} (hl : ∀ b ∈ db.log, b ∈ db'.log) {x : H256} {m : Spec.Map} (h : RootInv K P db x m) :
    RootInv K P db' x m := by
  obtain ⟨t, h0, h1, h2⟩ := h
  exact ⟨t, h0, ⟨hl _ h1.1, h1.2.mono hl⟩, h2⟩

/-! ### The operations -/

theorem Trie.get_ok (hR : Reads K (InLog db) db) {tr : Trie} {m : Spec.Map} (h : HandleInv K P db tr m) (k : Bytes) :
    tr.get db k = .ok (m k) := by
  obtain ⟨_, t, h1, h2, h3, _⟩ := h
  unfold Trie.get
  rw [path_eq, getAt_root hR h2 h1 (hops_ge _), h3.get]

theorem Trie.contains_ok (hR : Reads K (InLog db) db) {tr : Trie} {m : Spec.Map} (h : HandleInv K P db tr m) (k : Bytes) :
    tr.contains db k = .ok (m k).isSome := by
  have := Trie.get_ok hR h k
  unfold Trie.get at this
  unfold Trie.contains
  rw [this]
  rfl

theorem Trie.insert_ok (hR : Reads K (InLog db) db) {tr : Trie} {m : Spec.Map} (h : HandleInv K P db tr m) {k v : Bytes}
    (hk : k.length ≤ 2 ^ 59) (hv : v.length < 2 ^ 60) (hne : v ≠ []) :
    ∃ tr', tr.insert db k v = .ok (tr', none) ∧ HandleInv K P db tr' (m.set k (some v)) := by
  obtain ⟨h0, t, h1, h2, h3, h4⟩ := h
  obtain ⟨n, e, hr⟩ := insertAt_root (v := v) hR h2 h1 (hops_ge (nibsOf k))
  unfold Trie.insert
  rw [if_neg (by simpa using hne), path_eq]
  dsimp only
  rw [e]
  exact ⟨_, rfl, h0, _, .node hr, ok_insert h2 (by rw [nibsOf_length]; omega) ⟨hne, hv⟩, h3.insert k v, fun p => canon_insert v _ (h4 p)⟩

theorem nibsOf_append (a b : Bytes) : nibsOf (a ++ b) = nibsOf a ++ nibsOf b := by simp [nibsOf]

/-- No key of the map is a proper extension of the path. -/
theorem Agrees.plain {t : PT} {m : Spec.Map} (h : Agrees t m) {k : Bytes} (hk : ∀ k', Spec.ProperPrefix k k' → m k' = none) (x : List Nib)
    (hx : x ≠ []) : t.get (nibsOf k ++ x) = none := by
  by_contra hn
  have hs : (t.get (nibsOf k ++ x)).isSome := by rwa [Option.isSome_iff_ne_none]
  obtain ⟨k', e⟩ := h.keys _ hs
  have hl := congrArg List.length e
  rw [List.length_append, nibsOf_length, nibsOf_length] at hl
  have hx0 : 0 < x.length := List.length_pos_iff.2 hx
  have e1 : nibsOf (k'.take k.length) = nibsOf k := by
    have h1 : nibsOf k' = nibsOf (k'.take k.length) ++ nibsOf (k'.drop k.length) := by rw [← nibsOf_append, List.take_append_drop]
    rw [h1] at e
    have hlen : (nibsOf (k'.take k.length)).length = (nibsOf k).length := by
      rw [nibsOf_length, nibsOf_length, List.length_take]; omega
    exact (List.append_inj e hlen.symm).1.symm
  have e2 := nibsOf_inj e1
  have hp : Spec.ProperPrefix k k' := by
    refine ⟨k'.drop k.length, ?_, ?_⟩
    · intro h0
      have := congrArg List.length h0
      rw [List.length_drop, List.length_nil] at this
      omega
    · conv => lhs; rw [← List.take_append_drop k.length k', e2]
  rw [e, h.get, hk k' hp] at hs
  cases hs

theorem nibsOf_byte (b : UInt8) (t : Bytes) :
    nibsOf (b :: t) = ⟨b.toNat / 16, by have := b.toNat_lt; omega⟩ :: ⟨b.toNat % 16, by omega⟩ :: nibsOf t := rfl

theorem Agrees.parts {t : PT} {m : Spec.Map} (h : Agrees t m) {k : Bytes} : PT.Parts t (nibsOf k) ↔ Spec.Parts m k := by
  constructor
  · rintro ⟨i, j, x, y, hij, hx, hy⟩
    have key : ∀ {i : Nib} {x : List Nib}, (t.get (nibsOf k ++ i :: x)).isSome → ∃ (b : UInt8) (s : Bytes), b.toNat / 16 = i.val ∧
        (m (k ++ b :: s)).isSome := by
      intro i x hx
      by_contra hn
      have : (t.get (nibsOf k ++ i :: x)) = none := by
        obtain ⟨k', e⟩ := h.keys _ hx
        have hl := congrArg List.length e
        rw [List.length_append, nibsOf_length, nibsOf_length, List.length_cons] at hl
        have h1 : nibsOf k' = nibsOf (k'.take k.length) ++ nibsOf (k'.drop k.length) := by rw [← nibsOf_append, List.take_append_drop]
        have hlen : (nibsOf (k'.take k.length)).length = (nibsOf k).length := by
          rw [nibsOf_length, nibsOf_length, List.length_take]; omega
        obtain ⟨e1, e2⟩ := List.append_inj (h1.symm.trans e.symm) hlen
        have e3 := nibsOf_inj e1
        rcases hd : k'.drop k.length with _ | ⟨b, s⟩
        · rw [hd] at e2; cases e2
        · rw [hd, nibsOf_byte] at e2
          injection e2 with e4 _
          exfalso
          refine hn ⟨b, s, by rw [← e4], ?_⟩
          rw [e, h.get] at hx
          rwa [← List.take_append_drop k.length k', e3, hd] at hx
      rw [this] at hx; cases hx
    obtain ⟨a, s, ha, hs⟩ := key hx
    obtain ⟨b, u, hb, hu⟩ := key hy
    exact ⟨a, b, s, u, by rw [ha, hb]; exact fun e => hij (Fin.ext e), hs, hu⟩
  · rintro ⟨a, b, s, u, hab, hs, hu⟩
    rw [← h.get, nibsOf_append, nibsOf_byte] at hs hu
    exact ⟨_, _, _, _, fun e => hab (congrArg Fin.val e), hs, hu⟩

/-- Removing the key leaves no branch behind. -/
theorem Agrees.smooth {t : PT} {m : Spec.Map} (h : Agrees t m) {k : Bytes} (hk : Spec.Smooth m k) :
    t.get (nibsOf k) = none ∨ (∀ x, x ≠ [] → t.get (nibsOf k ++ x) = none) ∨ PT.Parts t (nibsOf k) := by
  rw [h.parts, h.get]
  exact hk.imp id (Or.imp (fun hk x hx => h.plain hk x hx) id)

theorem Trie.remove_ok (hR : Reads K (InLog db) db) {tr : Trie} {m : Spec.Map} (h : HandleInv K P db tr m) (k : Bytes)
    (hp : P → Spec.Smooth m k) :
    ∃ tr' b, tr.remove db k = .ok (tr', .ok b) ∧ HandleInv K P db tr' (m.set k none) ∧ ((m k).isSome → b = true) ∧
      (P → (∀ k', Spec.ProperPrefix k k' → m k' = none) → b = (m k).isSome) := by
  obtain ⟨h0, t, h1, h2, h3, h4⟩ := h
  obtain ⟨n, b, r, e, hd, hr, hn⟩ := deleteAt_root hR h2 h1 (hops_ge (nibsOf k))
  unfold Trie.remove
  rw [path_eq]
  dsimp only
  rw [e]
  refine ⟨_, b, rfl, ⟨h0, r, .node hr, ok_del hd h2, h3.del hd, fun p => ?_⟩, ?_, fun p hk => ?_⟩
  · exact canon_del hd (h4 p) (h3.smooth (hp p))
  · intro hs
    cases b with
    | true => rfl
    | false =>
      have e1 := del_false hd
      have e2 := get_del hd (nibsOf k)
      rw [e1, if_pos rfl, h3.get] at e2
      rw [e2] at hs; cases hs
  · rw [← h3.get]
    exact del_flag hd (h4 p) (fun x hx => h3.plain hk x hx)

theorem NoClash.subset {a b : List Bytes} (h : NoClash K b) (hab : ∀ x ∈ a, x ∈ b) : NoClash K a :=
  fun x hx y hy => h x (hab x hx) y (hab y hy)

/-- The first part of `commit`. -/
theorem Trie.writeRoot_q {Q : PT → Prop} {tr : Trie} {m : Spec.Map} (h : HandleQ K Q db tr m) :
    ∃ tr' t, tr.writeRoot K = .ok (tr', K (enc K t)) ∧ (∀ e ∈ tr'.cache, EntryOk K e) ∧ Held K (Plus (InLog db) tr'.cache) t ∧
      Ok t (2 ^ 60) ∧ Agrees t m ∧ Q t := by
  obtain ⟨h0, t, h1, h2, h3⟩ := h
  have cacheOk : ∀ w : Written, (∀ e ∈ w, EntryOk K e) → ∀ e ∈ tr.cache ++ w, EntryOk K e := by
    intro w hw e he
    rcases List.mem_append.1 he with he | he
    · exact h0 e he
    · exact hw e he
  generalize hroot : tr.root = n at h1
  cases h1 with
  | hash h1 =>
    refine ⟨tr.addWritten [], t, ?_, cacheOk [] (by simp), ⟨.inl h1.1, h1.2.mono (fun b hb => .inl hb)⟩, h2, h3⟩
    unfold Trie.writeRoot
    rw [hroot]
    rfl
  | node h1 =>
    obtain ⟨w, e, hw, hl⟩ := writeNode_rep h1 h2
    unfold Trie.writeRoot
    rw [hroot, e]
    simp only [Res.ok_bind]
    by_cases hs : (enc K t).length < 32
    · rw [show encodedOf K (enc K t) = .inline (enc K t) from if_pos hs]
      refine ⟨_, t, rfl, ?_, ⟨?_, ?_⟩, h2, h3⟩
      · intro e he
        rcases List.mem_append.1 he with he | he
        · exact cacheOk w hw.1 e he
        · rw [List.mem_singleton.1 he]
          exact ⟨rfl, t, h2, rfl⟩
      · exact plus_append_right (.inr (by simp))
      · exact hw.2.mono (fun b hb => plus_append_left (plus_append_right hb))
    · rw [show encodedOf K (enc K t) = .hash (K (enc K t)) from if_neg hs]
      refine ⟨_, t, rfl, cacheOk w hw.1, ⟨plus_append_right (hl (by omega)), ?_⟩, h2, h3⟩
      exact hw.2.mono (fun b hb => plus_append_right hb)

theorem Trie.writeRoot_ok {tr : Trie} {m : Spec.Map} (h : HandleInv K P db tr m) :
    ∃ tr' t, tr.writeRoot K = .ok (tr', K (enc K t)) ∧ (∀ e ∈ tr'.cache, EntryOk K e) ∧ Held K (Plus (InLog db) tr'.cache) t ∧
      Ok t (2 ^ 60) ∧ Agrees t m ∧ (P → Canon t) := Trie.writeRoot_q h

/-- `commit` succeeds; unless there is a clash, the root is read back. -/
theorem Trie.commit_q {Q : PT → Prop} (hd : DbInv K db) {tr : Trie} {m : Spec.Map} (h : HandleQ K Q db tr m) :
    ∃ tr' db' t, tr.commit K db = .ok (tr', db', .ok (K (enc K t))) ∧ DbInv K db' ∧ (∀ b ∈ db.log, b ∈ db'.log) ∧ tr'.cache = [] ∧
      Held K (InLog db') t ∧ Ok t (2 ^ 60) ∧ Agrees t m ∧ Q t ∧ (NoClash K db'.log → tr'.root = top K t) := by
  obtain ⟨tr1, t, e, hc, hh, hok, hag, hcan⟩ := Trie.writeRoot_q h
  have hinv := hd.insertBatch hc
  have hlog : ∀ b, Plus (InLog db) tr1.cache b → InLog (db.insertBatch tr1.cache) b := fun b hb => (insertBatch_log _ _).2 hb
  have hh' : Held K (InLog (db.insertBatch tr1.cache)) t := ⟨hlog _ hh.1, hh.2.mono hlog⟩
  have harch := removeBatch_archive hinv.archive (tr1.passingKeys.filter (fun k => !(tr1.genKeys.contains k)))
  unfold Trie.commit
  rw [e]
  simp only [Res.ok_bind]
  rw [harch]
  obtain ⟨c, hcget⟩ := Option.isSome_iff_exists.1 (hinv.complete _ hh'.1)
  obtain ⟨s, hs, hce⟩ := hinv.encs c (hinv.sound _ _ hcget).2
  have hrec : recover (db.insertBatch tr1.cache) (K (enc K t)) = .ok (some (top K s)) := by
    unfold recover
    rw [hcget]
    simp only
    rw [hce, decodeNode_enc hs]
    rfl
  rw [hrec]
  refine ⟨_, _, t, rfl, hinv, fun b hb => hlog b (.inl hb), rfl, hh', hok, hag, hcan, ?_⟩
  intro hnc
  have hf := fetch_held (hinv.reads hnc) hh' hok
  unfold fetch at hf
  rw [hrec] at hf
  simp only at hf
  exact Except.ok.inj hf

theorem Trie.commit_ok (hd : DbInv K db) {tr : Trie} {m : Spec.Map} (h : HandleInv K P db tr m) :
    ∃ tr' db' t, tr.commit K db = .ok (tr', db', .ok (K (enc K t))) ∧ DbInv K db' ∧ (∀ b ∈ db.log, b ∈ db'.log) ∧ tr'.cache = [] ∧
      Held K (InLog db') t ∧ Ok t (2 ^ 60) ∧ Agrees t m ∧ (P → Canon t) ∧ (NoClash K db'.log → tr'.root = top K t) := Trie.commit_q hd h

theorem Trie.getProof_q {Q : PT → Prop} (hR : Reads K (InLog db) db) {tr : Trie} {m : Spec.Map} (h : HandleQ K Q db tr m) (k : Bytes) :
    (∃ tr' l, tr.getProof K db k = .ok (tr', .ok l) ∧ HandleQ K Q db tr' m) ∨ (IsHash tr.root ∧ ∃ msg, tr.getProof K db k = .error (.panic msg)) := by
  obtain ⟨h0, t, h1, h2, h3, h4⟩ := h
  obtain ⟨l, e, hl⟩ := pathAt_root hR h2 h1 (hops_ge (nibsOf k))
  have hnodes : ∀ n ∈ (l.map (top K)).reverse, ¬ IsHash n ∧ ∃ s, Rep K (InLog db) n s ∧ Ok s (2 ^ 60) := by
    intro n hn
    simp only [List.mem_reverse, List.mem_map] at hn
    obtain ⟨s, hs, rfl⟩ := hn
    exact ⟨top_not_hash s, s, rep_top (hl s hs).1.2, (hl s hs).2⟩
  unfold Trie.getProof
  rw [path_eq, e]
  simp only
  by_cases hr : IsHash tr.root
  · right
    refine ⟨hr, ?_⟩
    cases hroot : tr.root with
    | hash x =>
      simp only [List.reverse_append, List.reverse_cons, List.reverse_nil, List.nil_append, List.cons_append]
      exact ⟨_, rfl⟩
    | _ => rw [hroot] at hr; exact hr.elim
  · left
    have hrep : Rep K (InLog db) tr.root t := by
      generalize tr.root = n at *
      cases h1 with
      | node h1 => exact h1
      | hash h1 => exact absurd trivial hr
    have : ∃ bs w, Trie.encodeAll K ((match tr.root with | .empty => (l.map (top K)).reverse | _ => (l.map (top K)).reverse ++ [tr.root]).reverse)
        = .ok (bs, w) ∧ ∀ e ∈ w, EntryOk K e := by
      apply encodeAll_ok (S := InLog db)
      intro n hn
      rw [List.mem_reverse] at hn
      split at hn
      · exact hnodes n hn
      · rcases List.mem_append.1 hn with hn | hn
        · exact hnodes n hn
        · rw [List.mem_singleton.1 hn]
          exact ⟨hr, t, hrep, h2⟩
    obtain ⟨bs, w, e1, e2⟩ := this
    refine ⟨tr.addWritten w, bs, ?_, ?_, t, h1, h2, h3, h4⟩
    · erw [e1]
      rfl
    · intro x hx
      rcases List.mem_append.1 hx with hx | hx
      · exact h0 x hx
      · exact e2 x hx

theorem Trie.getProof_ok (hR : Reads K (InLog db) db) {tr : Trie} {m : Spec.Map} (h : HandleInv K P db tr m) (k : Bytes) :
    (∃ tr' l, tr.getProof K db k = .ok (tr', .ok l) ∧ HandleInv K P db tr' m) ∨ (IsHash tr.root ∧ ∃ msg, tr.getProof K db k = .error (.panic msg)) :=
  Trie.getProof_q hR h k

/-! ### Programs -/

theorem getElem?_update {σ : Spec.State} {i : Nat} {m : Spec.Map} (h : σ.maps[i]? = some m) (f : Spec.Map → Spec.Map) :
    σ.update i f = { σ with maps := σ.maps.set i (f m) } := by
  unfold Spec.State.update
  rw [h]

theorem update_none {σ : Spec.State} {i : Nat} (h : σ.maps[i]? = none) (f : Spec.Map → Spec.Map) : σ.update i f = σ := by
  unfold Spec.State.update
  rw [h]

/-- What a step gives in a state of a program: it is in the invariant again, or it is the panic of `get_proof` on a view. -/
theorem SysInv.step {s : Sys} {σ : Spec.State} (h : SysInv K P s σ) {op : Op} (hop : Spec.Fits op) (hP : P → Spec.PlainRemoval σ op)
    (hnc : NoClash K s.db.log) :
    (∃ s' r, s.step K op = .ok (s', r) ∧ Spec.Answers σ op r ∧ (NoClash K s'.db.log → SysInv K P s' (Spec.step σ op))) ∨
      (∃ i k tr msg, op = .proof i k ∧ s.tries[i]? = some tr ∧ IsHash tr.root ∧ s.step K op = .error (.panic msg)) := by
  have hR := h.db.reads hnc
  have ge : ∀ {l : List Spec.Map} {i : Nat}, l[i]? = none → ¬ i < l.length := fun h => Nat.not_lt.2 (List.getElem?_eq_none_iff.1 h)
  have lt : ∀ {l : List Spec.Map} {i : Nat} {m : Spec.Map}, l[i]? = some m → i < l.length := fun h => (List.getElem?_eq_some_iff.1 h).1
  cases op with
  | new =>
    refine .inl ⟨_, _, rfl, rfl, fun _ => ⟨h.db, h.tries.append ?_, h.roots⟩⟩
    exact ⟨(by intro e he; cases he), PT.empty, RepRoot.node Rep.empty, trivial, Agrees.empty, fun _ => trivial⟩
  | openAt j =>
    simp only [Sys.step, Spec.step]
    rcases hj : s.roots[j]? with _ | x
    · rw [h.roots.none.1 hj]
      exact .inl ⟨_, _, rfl, (if_neg (ge (h.roots.none.1 hj))).symm, fun _ => h⟩
    · obtain ⟨m, hm, t, e, h1, h2, h3, h4⟩ := h.roots.some hj
      rw [hm]
      refine .inl ⟨_, _, rfl, (if_pos (lt hm)).symm, fun _ => ⟨h.db, h.tries.append ?_, h.roots⟩⟩
      refine ⟨(by intro e he; cases he), t, ?_, h2, h3, h4⟩
      simp only [Trie.atRoot, e]
      exact .hash h1
  | insert i k v =>
    simp only [Sys.step, Spec.step]
    rcases hi : s.tries[i]? with _ | tr
    · rw [update_none (h.tries.none.1 hi)]
      exact .inl ⟨_, _, rfl, (by simp only [Spec.Answers]; rw [if_neg (ge (h.tries.none.1 hi))]; trivial), fun _ => h⟩
    · obtain ⟨m, hm, hinv⟩ := h.tries.some hi
      rw [getElem?_update hm]
      simp only [Sys.insert]
      by_cases hv : v = []
      · subst hv
        have e : tr.insert s.db k [] = .ok (tr, some "value provided for key is empty") := rfl
        rw [e]
        exact .inl ⟨_, _, rfl, (by simp only [Spec.Answers]; rw [if_pos (lt hm), if_pos trivial]; exact ⟨_, rfl⟩), fun _ => ⟨h.db, h.tries.set i hinv, h.roots⟩⟩
      · obtain ⟨tr', e, hinv'⟩ := Trie.insert_ok hR hinv hop.1 hop.2 hv
        rw [e]
        refine .inl ⟨_, _, rfl, (by simp only [Spec.Answers]; rw [if_pos (lt hm), if_neg hv]; trivial), fun _ => ⟨h.db, h.tries.set i ?_, h.roots⟩⟩
        rw [if_neg hv]
        exact hinv'
  | remove i k =>
    simp only [Sys.step, Spec.step]
    rcases hi : s.tries[i]? with _ | tr
    · rw [update_none (h.tries.none.1 hi)]
      exact .inl ⟨_, _, rfl, (by simp only [Spec.Answers]; rw [h.tries.none.1 hi]; trivial), fun _ => h⟩
    · obtain ⟨m, hm, hinv⟩ := h.tries.some hi
      rw [getElem?_update hm]
      obtain ⟨tr', b, e, hinv', hb, _⟩ := Trie.remove_ok hR hinv k (fun p => hP p m hm)
      simp only [Sys.remove]
      rw [e]
      exact .inl ⟨_, _, rfl, (by simp only [Spec.Answers]; rw [hm]; exact ⟨b, rfl, hb⟩), fun _ => ⟨h.db, h.tries.set i hinv', h.roots⟩⟩
  | commit i =>
    simp only [Sys.step, Spec.step]
    rcases hi : s.tries[i]? with _ | tr
    · rw [h.tries.none.1 hi]
      exact .inl ⟨_, _, rfl, (by simp only [Spec.Answers]; rw [if_neg (ge (h.tries.none.1 hi))]; trivial), fun _ => h⟩
    · obtain ⟨m, hm, hinv⟩ := h.tries.some hi
      rw [hm]
      obtain ⟨tr', db', t, e, g1, g2, g3, g4, g5, g6, g7, g8⟩ := Trie.commit_ok h.db hinv
      simp only [Sys.commit]
      rw [e]
      refine .inl ⟨_, _, rfl, (by simp only [Spec.Answers]; rw [if_pos (lt hm)]; exact ⟨_, rfl⟩), fun hnc' => ⟨g1, ?_, ?_⟩⟩
      · refine (h.tries.mono (fun _ _ h => h.mono g2)).set_left i fun y hy => ?_
        rw [hm] at hy
        cases hy
        refine ⟨(by rw [g3]; intro e he; cases he), t, ?_, g5, g6, g7⟩
        rw [g8 hnc']
        exact .node (rep_top g4.2)
      · exact (h.roots.mono (fun _ _ h => h.mono g2)).append ⟨t, rfl, g4, g5, g6, g7⟩
  | proof i k =>
    simp only [Sys.step, Spec.step]
    rcases hi : s.tries[i]? with _ | tr
    · exact .inl ⟨_, _, rfl, (by simp only [Spec.Answers]; rw [if_neg (ge (h.tries.none.1 hi))]; trivial), fun _ => h⟩
    · obtain ⟨m, hm, hinv⟩ := h.tries.some hi
      simp only [Sys.proof]
      rcases Trie.getProof_ok hR hinv k with ⟨tr', l, e, hinv'⟩ | ⟨hh, msg, e⟩
      · rw [e]
        refine .inl ⟨_, _, rfl, (by simp only [Spec.Answers]; rw [if_pos (lt hm)]; exact ⟨_, rfl⟩), fun _ => ⟨h.db, h.tries.set_left i fun y hy => ?_, h.roots⟩⟩
        rw [hm] at hy
        cases hy
        exact hinv'
      · rw [e]
        exact .inr ⟨i, k, tr, msg, rfl, hi, hh, rfl⟩

theorem Sys.run_cons {s s' : Sys} {op : Op} {ops : List Op} {rs : List Ret} (h : s.run K (op :: ops) = .ok (s', rs)) :
    ∃ s1 r rs', s.step K op = .ok (s1, r) ∧ s1.run K ops = .ok (s', rs') ∧ rs = r :: rs' := by
  unfold Sys.run at h
  rcases h1 : s.step K op with e | ⟨s1, r⟩
  · rw [h1] at h; cases h
  · rw [h1] at h
    simp only at h
    rcases h2 : s1.run K ops with e | ⟨s2, rs'⟩
    · rw [h2] at h; cases h
    · rw [h2] at h
      cases h
      exact ⟨s1, r, rs', rfl, h2, rfl⟩

/-- The stored byte strings are only added to. -/
theorem removeBatch_log (l : List H256) (db : Db) : (db.removeBatch l).log = db.log := by
  unfold Db.removeBatch
  induction l generalizing db with
  | nil => rfl
  | cons x t ih =>
    rw [List.foldl_cons, ih]
    unfold Db.remove
    split <;> rfl

theorem Trie.commit_log {tr tr' : Trie} {db db' : Db} {x : Except String H256} (h : tr.commit K db = .ok (tr', db', x)) :
    ∀ b ∈ db.log, b ∈ db'.log := by
  intro b hb
  unfold Trie.commit at h
  rcases hw : tr.writeRoot K with e | ⟨tr1, hh⟩
  · rw [hw] at h; cases h
  · rw [hw] at h
    simp only [Res.ok_bind] at h
    have key : ((db.insertBatch tr1.cache).removeBatch (tr1.passingKeys.filter (fun k => !(tr1.genKeys.contains k)))).log
      = (db.insertBatch tr1.cache).log := removeBatch_log _ _
    have hin : b ∈ (db.insertBatch tr1.cache).log := (insertBatch_log _ _).2 (Or.inl hb)
    rw [← key] at hin
    split at h
    · cases h
    · cases h; exact hin
    · cases h
    · cases h; exact hin

theorem Sys.step_log {s s' : Sys} {op : Op} {r : Ret} (h : s.step K op = .ok (s', r)) : ∀ b ∈ s.db.log, b ∈ s'.db.log := by
  intro b hb
  cases op with
  | new => cases h; exact hb
  | openAt j =>
    simp only [Sys.step] at h
    split at h <;> (cases h; exact hb)
  | insert i k v =>
    simp only [Sys.step] at h
    split at h
    · cases h; exact hb
    · unfold Sys.insert at h
      split at h
      · cases h
      · cases h; exact hb
      · cases h; exact hb
  | remove i k =>
    simp only [Sys.step] at h
    split at h
    · cases h; exact hb
    · unfold Sys.remove at h
      split at h
      · cases h
      · cases h; exact hb
      · cases h; exact hb
  | commit i =>
    simp only [Sys.step] at h
    split at h
    · cases h; exact hb
    · unfold Sys.commit at h
      split at h
      · cases h
      · next e => cases h; exact Trie.commit_log e b hb
      · next e => cases h; exact Trie.commit_log e b hb
  | proof i k =>
    simp only [Sys.step] at h
    split at h
    · cases h; exact hb
    · unfold Sys.proof at h
      split at h
      · cases h
      · cases h; exact hb
      · cases h; exact hb

theorem Sys.step_roots {s s' : Sys} {op : Op} {r : Ret} (h : s.step K op = .ok (s', r)) :
    s'.roots = s.roots ++ (Spec.rootOf r).toList := by
  cases op <;> simp only [Sys.step] at h
  · cases h; simp [Spec.rootOf]
  · split at h <;> (cases h; simp [Spec.rootOf])
  all_goals
    split at h
    · cases h; simp [Spec.rootOf]
    · first | unfold Sys.insert at h | unfold Sys.remove at h | unfold Sys.commit at h | unfold Sys.proof at h
      split at h
      · cases h
      · cases h; simp [Spec.rootOf, Sys.put]
      · cases h; simp [Spec.rootOf, Sys.put]

theorem Sys.run_roots {s s' : Sys} {ops : List Op} {rs : List Ret} (h : s.run K ops = .ok (s', rs)) :
    s'.roots = s.roots ++ rs.filterMap Spec.rootOf := by
  induction ops generalizing s rs with
  | nil => cases h; simp
  | cons op t ih =>
    obtain ⟨s1, r, rs', h1, h2, rfl⟩ := Sys.run_cons h
    rw [ih h2, Sys.step_roots h1]
    cases hr : Spec.rootOf r <;> simp [hr]

theorem Sys.run_log {s s' : Sys} {ops : List Op} {rs : List Ret} (h : s.run K ops = .ok (s', rs)) : ∀ b ∈ s.db.log, b ∈ s'.db.log := by
  induction ops generalizing s rs with
  | nil => cases h; exact fun b hb => hb
  | cons op t ih =>
    obtain ⟨s1, r, rs', h1, h2, _⟩ := Sys.run_cons h
    exact fun b hb => ih h2 b (Sys.step_log h1 b hb)

theorem SysInv.run {s s' : Sys} {σ : Spec.State} {ops : List Op} {rs : List Ret} (h : SysInv K P s σ) (hfit : ∀ op ∈ ops, Spec.Fits op)
    (hP : P → Spec.PlainFrom σ ops) (hrun : s.run K ops = .ok (s', rs)) (hnc : NoClash K s'.db.log) :
    SysInv K P s' (ops.foldl Spec.step σ) := by
  induction ops generalizing s σ rs with
  | nil => cases hrun; exact h
  | cons op t ih =>
    obtain ⟨s1, r, rs', h1, h2, _⟩ := Sys.run_cons hrun
    have hnc1 : NoClash K s1.db.log := hnc.subset (Sys.run_log h2)
    have hnc0 : NoClash K s.db.log := hnc1.subset (Sys.step_log h1)
    rcases h.step (hfit op (by simp)) (fun p => (hP p).1) hnc0 with ⟨s2, r2, e, _, hi⟩ | ⟨_, _, _, _, _, _, _, e⟩
    · rw [e] at h1
      cases h1
      exact ih (hi hnc1) (fun o ho => hfit o (by simp [ho])) (fun p => (hP p).2) h2
    · rw [e] at h1; cases h1

/-- Programs without `get_proof` succeed, unless there is a collision. -/
theorem SysInv.total {s : Sys} {σ : Spec.State} {ops : List Op} (h : SysInv K False s σ) (hfit : ∀ op ∈ ops, Spec.Fits op)
    (hpf : ∀ op ∈ ops, Spec.NoProof op) (hnc : NoClash K s.db.log) :
    (∃ s' rs, s.run K ops = .ok (s', rs) ∧ Spec.AnswersFrom σ ops rs) ∨
      ∃ pre s' rs, pre <+: ops ∧ s.run K pre = .ok (s', rs) ∧ ¬ NoClash K s'.db.log := by
  induction ops generalizing s σ with
  | nil => exact .inl ⟨s, [], rfl, rfl⟩
  | cons op t ih =>
    rcases h.step (hfit op (by simp)) (fun p => p.elim) hnc with ⟨s1, r, e, ha, hi⟩ | ⟨_, _, _, _, rfl, _⟩
    · by_cases hnc1 : NoClash K s1.db.log
      · rcases ih (hi hnc1) (fun o ho => hfit o (by simp [ho])) (fun o ho => hpf o (by simp [ho])) hnc1 with
          ⟨s2, rs, g1, g2⟩ | ⟨pre, s2, rs, g1, g2, g3⟩
        · refine .inl ⟨s2, r :: rs, ?_, r, rs, rfl, ha, g2⟩
          unfold Sys.run
          rw [e]
          simp only [g1]
        · refine .inr ⟨op :: pre, s2, r :: rs, ?_, ?_, g3⟩
          · obtain ⟨x, rfl⟩ := g1
            exact ⟨x, rfl⟩
          · unfold Sys.run
            rw [e]
            simp only [g2]
      · refine .inr ⟨[op], s1, [r], ⟨t, rfl⟩, ?_, hnc1⟩
        unfold Sys.run
        rw [e]
        rfl
    · exact (hpf _ List.mem_cons_self).elim

/-! ### Collisions -/

theorem not_noClash {l : List Bytes} (h : ¬ NoClash K l) : Spec.Collision K l := by
  by_contra hn
  refine h fun a ha b hb hab => ?_
  by_contra hne
  exact hn ⟨a, ha, b, hb, hne, hab⟩

theorem collision_or (K : Keccak) (l : List Bytes) : Spec.Collision K l ∨ NoClash K l := by
  by_cases h : NoClash K l
  · exact .inr h
  · exact .inl (not_noClash h)

theorem plainFrom_of_noRemove {ops : List Op} (h : ∀ op ∈ ops, Spec.NoRemove op) (σ : Spec.State) : Spec.PlainFrom σ ops := by
  induction ops generalizing σ with
  | nil => trivial
  | cons op t ih =>
    refine ⟨?_, ih (fun o ho => h o (by simp [ho])) _⟩
    have := h op (by simp)
    cases op <;> trivial

end Verif.Pmt
