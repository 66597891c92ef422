import Verif.Spec.YellowPaper
import Verif.Proofs.PmtRun
/-!
The encoding of a tree in normal form is the one of the Yellow Paper for its entries.
-/

set_option autoImplicit false

namespace Verif.Pmt.Yellow
open Verif.Pmt PT

variable {K : Keccak}

/-! ### RLP and hex-prefix encoding -/

theorem ofNat_mod (n : Nat) : UInt8.ofNat (n % 256) = UInt8.ofNat n := by
  apply UInt8.toNat_inj.1
  simp

theorem be_eq (f n : Nat) (h : n < 256 ^ f) : Rlp.beBytes f n = be n := by
  induction f generalizing n with
  | zero =>
    have : n = 0 := by simpa using h
    subst this; rfl
  | succ f ih =>
    unfold Rlp.beBytes
    split
    · next h0 => subst h0; rfl
    · next h0 =>
      rw [ih (n / 256) (by rw [Nat.pow_succ] at h; exact Nat.div_lt_of_lt_mul (by rw [Nat.mul_comm]; exact h))]
      unfold be
      rw [Nat.digits_def' (b := 256) (by decide) (Nat.pos_of_ne_zero h0)]
      simp [ofNat_mod]

theorem header_eq (o : Nat) (s : Bytes) (h : s.length < 256 ^ 8) : Rlp.header o s.length ++ s = withLength o s := by
  unfold Rlp.header withLength
  by_cases hs : s.length < 56
  · rw [if_pos (by omega), if_pos hs]; rfl
  · rw [if_neg (by omega), if_neg hs, be_eq 8 _ h]

theorem data_eq (b : Bytes) (h : b.length < 256 ^ 8) : Rlp.encodeData b = rlp (.data b) := by
  unfold Rlp.encodeData rlp
  match b, h with
  | [], h => rw [if_neg (by simp)]; exact header_eq 128 [] h
  | [x], h =>
    by_cases hx : x.toNat < 128
    · rw [if_pos (by simpa using hx)]; simp only; rw [if_pos hx]
    · rw [if_neg (by simpa using hx)]; simp only; rw [if_neg hx]; exact header_eq 128 [x] h
  | x :: y :: t, h => rw [if_neg (by simp)]; exact header_eq 128 _ h

theorem rlpAll_eq (l : List Item) : rlpAll l = (l.map rlp).flatten := by
  induction l with
  | nil => simp [rlpAll]
  | cons i t ih => simp [rlpAll, ih]

theorem list_eq (l : List Item) (h : (l.map rlp).flatten.length < 256 ^ 8) : Rlp.encodeList (l.map rlp) = rlp (.list l) := by
  unfold Rlp.encodeList rlp
  rw [rlpAll_eq, header_eq 192 _ h]

theorem pairs_eq (l : List Nib) : pack l = pairs l := by
  match l with
  | [] => rfl
  | [_] => rfl
  | a :: b :: t => rw [pack, pairs, pairs_eq t, Nat.mul_comm]

theorem hp_eq (leaf : Bool) (l : List Nib) : compact leaf l = hp l leaf := by
  unfold compact hp
  cases l with
  | nil => cases leaf <;> rfl
  | cons a t =>
    by_cases h : (a :: t).length % 2 = 1
    · simp only [if_pos h, if_neg (show ¬(a :: t).length % 2 = 0 by omega), pairs_eq]
      cases leaf
      · rfl
      · rw [List.cons.injEq]; exact ⟨congrArg _ (by simp only [if_true]; omega), rfl⟩
    · simp only [if_neg h, if_pos (show (a :: t).length % 2 = 0 by omega), pairs_eq]
      cases leaf <;> rfl

theorem nibbles_eq (k : Bytes) : nibbles k = nibsOf k := by
  induction k with
  | nil => rfl
  | cons b t ih =>
    have := b.toNat_lt
    simp only [nibbles, ih, nibsOf, List.flatMap_cons, List.cons_append, List.nil_append, List.cons.injEq, and_true]
    refine ⟨Fin.ext ?_, Fin.ext ?_⟩
    · simp only [Fin.ofNat]; omega
    · simp only [Fin.ofNat]

/-! ### Common prefixes -/

theorem prefix_common2 {q a b : List Nib} : q <+: common2 a b ↔ q <+: a ∧ q <+: b := by
  induction a generalizing b q with
  | nil => simp only [common2]; exact ⟨fun h => ⟨h, by rw [List.prefix_nil.1 h]; exact List.nil_prefix⟩, fun h => h.1⟩
  | cons x s ih =>
    cases b with
    | nil => simp only [common2]; exact ⟨fun h => ⟨by rw [List.prefix_nil.1 h]; exact List.nil_prefix, h⟩, fun h => h.2⟩
    | cons y t =>
      cases q with
      | nil => simp
      | cons z u =>
        simp only [common2]
        split
        · next h =>
          subst h
          simp only [List.cons_prefix_cons, ih]
          tauto
        · next h =>
          simp only [List.cons_prefix_cons, List.prefix_nil]
          constructor
          · intro h'; cases h'
          · rintro ⟨⟨rfl, _⟩, ⟨rfl, _⟩⟩; exact absurd rfl h

theorem prefix_common {q : List Nib} : ∀ {l : List (List Nib)}, l ≠ [] → (q <+: common l ↔ ∀ p ∈ l, q <+: p)
  | [], h => absurd rfl h
  | [p], _ => by simp [common]
  | p :: p' :: t, _ => by
    rw [common, prefix_common2, prefix_common (by simp)]
    · simp
    · simp

theorem common_eq {l : List (List Nib)} {p x y : List Nib} (hp : ∀ a ∈ l, p <+: a) (hx : p ++ x ∈ l) (hy : p ++ y ∈ l) (hne : x ≠ y)
    (ha : Apart x y) : common l = p := by
  have hl : l ≠ [] := List.ne_nil_of_mem hx
  have h1 : p <+: common l := (prefix_common hl).2 hp
  have h2 := (prefix_common hl).1 (List.prefix_refl (common l))
  have h3 : common l <+: p := prefix_of_apart ha hne (h2 _ hx) (h2 _ hy)
  exact h3.eq_of_length_le h1.length_le

/-! ### Entries -/

/-- The list has exactly the entries of the tree. -/
structure Has (t : PT) (J : List (List Nib × Bytes)) : Prop where
  nodup : (J.map Prod.fst).Nodup
  mem : ∀ p v, (p, v) ∈ J ↔ t.get p = some v

theorem Has.key {t : PT} {J : List (List Nib × Bytes)} (h : Has t J) {x : List Nib} (hx : (t.get x).isSome) : x ∈ J.map Prod.fst := by
  obtain ⟨v, hv⟩ := Option.isSome_iff_exists.1 hx
  exact List.mem_map.2 ⟨(x, v), (h.mem x v).2 hv, rfl⟩

theorem Has.get {t : PT} {J : List (List Nib × Bytes)} (h : Has t J) {x : List Nib} (hx : x ∈ J.map Prod.fst) : (t.get x).isSome := by
  obtain ⟨⟨y, v⟩, hm, rfl⟩ := List.mem_map.1 hx
  rw [(h.mem _ _).1 hm]; rfl

theorem Has.sub {p : List Nib} {s : PT} {J : List (List Nib × Bytes)} (h : Has (.ext p s) J) :
    Has s (J.map (fun e => (e.1.drop p.length, e.2))) := by
  have hp : ∀ e ∈ J, e.1 = p ++ e.1.drop p.length := by
    intro e he
    obtain ⟨r, hr⟩ := ext_keys (h.get (List.mem_map_of_mem he))
    rw [← hr]; simp
  refine ⟨?_, fun q v => ?_⟩
  · rw [List.map_map]
    have := h.nodup
    refine List.Nodup.map_on ?_ (List.Nodup.of_map _ this)
    intro a ha b hb hab
    have e1 : a.1 = b.1 := by
      have hab' : a.1.drop p.length = b.1.drop p.length := hab
      rw [hp a ha, hp b hb, hab']
    exact List.inj_on_of_nodup_map this ha hb e1
  · constructor
    · intro hm
      obtain ⟨e, he, heq⟩ := List.mem_map.1 hm
      have h1 := (h.mem e.1 e.2).1 he
      rw [hp e he, get_ext_append] at h1
      injection heq with a b
      rw [← a, ← b]; exact h1
    · intro hg
      refine List.mem_map.2 ⟨(p ++ q, v), (h.mem _ _).2 (by rw [get_ext_append]; exact hg), by simp⟩

theorem mem_below {i : Nib} {J : List (List Nib × Bytes)} {q : List Nib} {v : Bytes} : (q, v) ∈ below i J ↔ (i :: q, v) ∈ J := by
  unfold below
  rw [List.mem_filterMap]
  constructor
  · rintro ⟨⟨p, w⟩, he, h⟩
    cases p with
    | nil => cases h
    | cons a p =>
      simp only at h
      split at h
      · next ha => subst ha; cases h; exact he
      · cases h
  · intro h
    exact ⟨_, h, by simp⟩

theorem below_nodup {i : Nib} {J : List (List Nib × Bytes)} (h : (J.map Prod.fst).Nodup) : ((below i J).map Prod.fst).Nodup := by
  have : J.Nodup := List.Nodup.of_map _ h
  have hinj : ∀ a a' : List Nib × Bytes, ∀ b, b ∈ (match a.1 with
      | [] => none
      | c :: p => if c = i then some (p, a.2) else none) → b ∈ (match a'.1 with
      | [] => none
      | c :: p => if c = i then some (p, a'.2) else none) → a = a' := by
    rintro ⟨p, v⟩ ⟨p', v'⟩ ⟨q, w⟩ h1 h2
    cases p with
    | nil => cases h1
    | cons c p =>
      cases p' with
      | nil => cases h2
      | cons c' p' =>
        simp only [Option.mem_def] at h1 h2
        split at h1 <;> cases h1
        split at h2 <;> cases h2
        simp_all
  refine List.Nodup.map_on ?_ (List.Nodup.filterMap hinj this)
  rintro ⟨q, v⟩ hx ⟨q', v'⟩ hy hq
  have hq' : q = q' := hq
  subst hq'
  have := List.inj_on_of_nodup_map h (mem_below.1 hx) (mem_below.1 hy) rfl
  injection this with _ h2
  rw [h2]

theorem Has.child {cs : Nib → PT} {w : Option Bytes} {J : List (List Nib × Bytes)} (h : Has (.branch cs w) J) (i : Nib) :
    Has (cs i) (below i J) :=
  ⟨below_nodup h.nodup, fun q v => mem_below.trans (h.mem (i :: q) v)⟩

theorem Has.here {cs : Nib → PT} {w : Option Bytes} {J : List (List Nib × Bytes)} (h : Has (.branch cs w) J) : here J = w.getD [] := by
  unfold Yellow.here
  rcases hf : J.find? (fun e => e.1.isEmpty) with _ | ⟨p, v⟩
  · cases w with
    | none => rw [hf]; rfl
    | some v =>
      have := List.find?_eq_none.1 hf _ ((h.mem [] v).2 rfl)
      simp at this
  · have h1 := List.find?_some hf
    have h2 := List.mem_of_find?_eq_some hf
    have h3 : p = [] := by simpa using h1
    subst h3
    have h4 : w = some v := (h.mem [] v).1 h2
    rw [h4, hf]; rfl

theorem struct_two {n : Nat} {J : List (List Nib × Bytes)} {a b : List Nib × Bytes} (ha : a ∈ J) (hb : b ∈ J) (hne : a ≠ b) :
    struct K (n + 1) J = (let c := common (J.map Prod.fst)
    if c ≠ [] then .list [.data (hp c false), cap K (struct K n (J.map (fun e => (e.1.drop c.length, e.2))))]
    else .list ((List.finRange 16).map (fun i => cap K (struct K n (below i J))) ++ [.data (here J)])) := by
  match J, ha, hb with
  | [e], ha, hb => simp only [List.mem_singleton] at ha hb; exact absurd (ha.trans hb.symm) hne
  | e :: e' :: t, _, _ => rw [struct] <;> intros <;> simp_all

theorem cap_eq (b : Bytes) (i : Item) (h : b = rlp i) : itemOf K b = rlp (cap K i) := by
  subst h
  unfold itemOf cap
  split
  · rfl
  · exact data_eq _ (by rw [(K (rlp i)).size]; decide)

theorem value_eq {w : Option Bytes} (h : ∀ v, w = some v → ValOk v) : valueItem w = rlp (.data (w.getD [])) := by
  cases w with
  | none => exact data_eq [] (by simp)
  | some v => exact data_eq v (by rw [pow_256]; have := (h v rfl).2; omega)

/-- **The encoding of a tree in normal form** is the one of the Yellow Paper for its entries. -/
theorem enc_eq_struct (n : Nat) {t : PT} {J : List (List Nib × Bytes)} (hc : Canon t) (hok : Ok t (2 ^ 60)) (h : Has t J)
    (hn : ∀ e ∈ J, e.1.length < n) : enc K t = rlp (struct K n J) := by
  have emp : J = [] → t = .empty := by
    intro hJ
    by_contra hne
    obtain ⟨x, v, hx⟩ := canon_key hc hne
    have := (h.mem x v).2 hx
    rw [hJ] at this; cases this
  induction n generalizing t J with
  | zero =>
    have hJ : J = [] := by
      cases J with
      | nil => rfl
      | cons e J => have := hn e (by simp); omega
    rw [emp hJ]
    exact data_eq [] (by simp)
  | succ n ih =>
    have hlen := parts_length (K := K) hok
    cases t with
    | empty =>
      have hJ : J = [] := by
        cases J with
        | nil => rfl
        | cons e J => have := (h.mem e.1 e.2).1 (by simp); cases this
      subst hJ
      exact data_eq [] (by simp)
    | leaf k v =>
      have hJ : J = [(k, v)] := by
        have hall : ∀ e ∈ J, e = (k, v) := by
          rintro ⟨x, w⟩ he
          have := (h.mem x w).1 he
          simp only [PT.get] at this
          split at this
          · next hk => subst hk; cases this; rfl
          · cases this
        have hmem : (k, v) ∈ J := (h.mem k v).2 (by simp [PT.get])
        have hnd : J.Nodup := List.Nodup.of_map _ h.nodup
        match J, hall, hmem, hnd with
        | [e], hall, _, _ => rw [hall e (by simp)]
        | e :: e' :: t, hall, _, hnd =>
          rw [hall e (by simp), hall e' (by simp)] at hnd
          simp at hnd
      subst hJ
      rw [struct, ← list_eq]
      · simp only [List.map_cons, List.map_nil, enc]
        rw [← hp_eq, data_eq _ (by have := compact_lt (leaf := true) hok.1; rw [pow_256]; omega),
          data_eq v (by have := hok.2.2; rw [pow_256]; omega)]
      · simp only [parts] at hlen
        simp only [List.map_cons, List.map_nil]
        rwa [← hp_eq, ← data_eq _ (by have := compact_lt (leaf := true) hok.1; rw [pow_256]; omega),
          ← data_eq v (by have := hok.2.2; rw [pow_256]; omega)]
    | ext p s =>
      obtain ⟨hp0, hb, hs⟩ := hc
      cases s with
      | branch cs w =>
        obtain ⟨x, y, hx, hy, hxy, hap⟩ := canon_keys hs
        have kx := h.key (x := p ++ x) (by rw [get_ext_append]; exact hx)
        have ky := h.key (x := p ++ y) (by rw [get_ext_append]; exact hy)
        have hcom : common (J.map Prod.fst) = p :=
          common_eq (fun a ha => ext_keys (h.get ha)) kx ky hxy hap
        obtain ⟨a, ha, hax⟩ := List.mem_map.1 kx
        obtain ⟨b, hb', hby⟩ := List.mem_map.1 ky
        have hab : a ≠ b := by
          rintro rfl
          rw [hax] at hby
          exact hxy (List.append_cancel_left hby)
        rw [struct_two ha hb' hab]
        simp only [hcom]
        rw [if_pos hp0]
        have hsub := h.sub
        have hsn : ∀ e ∈ J.map (fun e => (e.1.drop p.length, e.2)), e.1.length < n := by
          intro e he
          obtain ⟨e', he', rfl⟩ := List.mem_map.1 he
          have h1 := hn e' he'
          have h2 := (ext_keys (h.get (List.mem_map_of_mem he'))).length_le
          have h3 : 0 < p.length := List.length_pos_of_ne_nil hp0
          simp only [List.length_drop]; omega
        have hemp : J.map (fun e => (e.1.drop p.length, e.2)) = [] → PT.branch cs w = .empty := by
          intro he
          rw [List.map_eq_nil_iff] at he
          rw [he] at ha; cases ha
        have hcap := cap_eq (K := K) _ _ (ih hs (ok_sub hok) hsub hsn hemp)
        have hd := data_eq (compact false p) (by have := compact_lt (leaf := false) hok.2.1; rw [pow_256]; omega)
        rw [hp_eq] at hd
        rw [← list_eq]
        · simp only [List.map_cons, List.map_nil]
          rw [← hcap, ← hd, ← hp_eq]; rfl
        · simp only [List.map_cons, List.map_nil]
          rw [← hcap, ← hd, ← hp_eq]; exact hlen
      | _ => exact hb.elim
    | branch cs w =>
      obtain ⟨x, y, hx, hy, hxy, hap⟩ := canon_keys hc
      have kx := h.key hx
      have ky := h.key hy
      have hcom : common (J.map Prod.fst) = [] :=
        common_eq (p := []) (fun a _ => List.nil_prefix) kx ky hxy hap
      obtain ⟨a, ha, hax⟩ := List.mem_map.1 kx
      obtain ⟨b, hb', hby⟩ := List.mem_map.1 ky
      have hab : a ≠ b := by rintro rfl; exact hxy (hax.symm.trans hby)
      rw [struct_two ha hb' hab]
      simp only [hcom]
      rw [if_neg (by simp)]
      have hcap : ∀ i, itemOf K (enc K (cs i)) = rlp (cap K (struct K n (below i J))) := by
        intro i
        refine cap_eq _ _ (ih (hc.1 i) (ok_child hok i) (h.child i) ?_ ?_)
        · rintro ⟨q, v⟩ he
          have := hn _ (mem_below.1 he)
          simp only [List.length_cons] at this
          simp only; omega
        · intro he
          by_contra hne
          obtain ⟨z, v, hz⟩ := canon_key (hc.1 i) hne
          have := ((h.child i).mem z v).2 hz
          rw [he] at this; cases this
      have hv := value_eq hok.2
      have hparts : parts K (.branch cs w) =
          ((List.finRange 16).map (fun i => cap K (struct K n (below i J))) ++ [Item.data (Yellow.here J)]).map rlp := by
        simp only [parts, List.map_append, List.map_map, List.map_cons, List.map_nil, h.here, hv]
        congr 1
        exact List.map_congr_left (fun i _ => hcap i)
      rw [← list_eq _ (by rw [← hparts]; exact hlen), ← hparts]
      rfl

theorem Lists.has {J : List (Bytes × Bytes)} {m : Spec.Map} (h : Lists J m) {t : PT} (ht : Agrees t m) : Has t (entries J) := by
  have hinj : ∀ a b : Bytes, nibbles a = nibbles b → a = b := by
    intro a b hab
    rw [nibbles_eq, nibbles_eq] at hab
    exact nibsOf_inj_iff.1 hab
  refine ⟨?_, fun p v => ?_⟩
  · have : (entries J).map Prod.fst = (J.map Prod.fst).map nibbles := by simp [entries]
    rw [this]
    exact List.Nodup.map (fun a b => hinj a b) h.1
  · unfold entries
    rw [List.mem_map]
    constructor
    · rintro ⟨⟨k, w⟩, he, heq⟩
      cases heq
      rw [nibbles_eq, ht.get]
      exact (h.2 _ _).1 he
    · intro hg
      obtain ⟨k, rfl⟩ := ht.keys p (by rw [hg]; rfl)
      exact ⟨(k, v), (h.2 k v).2 (by rw [← ht.get]; exact hg), by rw [nibbles_eq]⟩

theorem length_le_sum {J : List (List Nib × Bytes)} {e : List Nib × Bytes} (h : e ∈ J) : e.1.length ≤ (J.map (fun e => e.1.length)).sum := by
  induction J with
  | nil => cases h
  | cons a t ih =>
    simp only [List.map_cons, List.sum_cons]
    rcases List.mem_cons.1 h with rfl | h
    · omega
    · have := ih h; omega

theorem root_eq {J : List (Bytes × Bytes)} {m : Spec.Map} (h : Lists J m) {t : PT} (ht : Agrees t m) (hc : Canon t) (hok : Ok t (2 ^ 60)) :
    K (enc K t) = trieRoot K J := by
  unfold trieRoot
  rw [enc_eq_struct _ hc hok (h.has ht) (fun e he => Nat.lt_succ_of_le (length_le_sum he))]

/-! ### The maps of programs are finite -/

theorem Lists.set {J : List (Bytes × Bytes)} {m : Spec.Map} (h : Lists J m) (k : Bytes) (v : Option Bytes) :
    ∃ J', Lists J' (m.set k v) := by
  have hrest : Lists (J.filter (fun e => decide (e.1 ≠ k))) (m.set k none) := by
    refine ⟨?_, fun x w => ?_⟩
    · exact (List.filter_sublist.map _).nodup h.1
    · rw [List.mem_filter, h.2]
      by_cases hx : x = k <;> simp [Spec.Map.set, hx]
  cases v with
  | none => exact ⟨_, hrest⟩
  | some v =>
    refine ⟨(k, v) :: J.filter (fun e => decide (e.1 ≠ k)), ?_, fun x w => ?_⟩
    · rw [List.map_cons, List.nodup_cons]
      refine ⟨fun hk => ?_, hrest.1⟩
      obtain ⟨e, he, hek⟩ := List.mem_map.1 hk
      have := (List.mem_filter.1 he).2
      simp [hek] at this
    · rw [List.mem_cons, hrest.2]
      by_cases hx : x = k
      · subst hx; simp [Spec.Map.set, eq_comm]
      · simp [Spec.Map.set, hx]

theorem lists_run (ops : List Op) :
    (∀ m ∈ (Spec.run ops).maps, ∃ J, Lists J m) ∧ ∀ m ∈ (Spec.run ops).snaps, ∃ J, Lists J m := by
  have key : ∀ (ops : List Op) (s : Spec.State), ((∀ m ∈ s.maps, ∃ J, Lists J m) ∧ ∀ m ∈ s.snaps, ∃ J, Lists J m) →
      ((∀ m ∈ (ops.foldl Spec.step s).maps, ∃ J, Lists J m) ∧ ∀ m ∈ (ops.foldl Spec.step s).snaps, ∃ J, Lists J m) := by
    intro ops
    induction ops with
    | nil => exact fun s h => h
    | cons op ops ih =>
      intro s h
      refine ih _ ?_
      have upd : ∀ (i : Nat) (f : Spec.Map → Spec.Map), (∀ m, (∃ J, Lists J m) → ∃ J, Lists J (f m)) →
          ((∀ m ∈ (s.update i f).maps, ∃ J, Lists J m) ∧ ∀ m ∈ (s.update i f).snaps, ∃ J, Lists J m) := by
        intro i f hf
        unfold Spec.State.update
        rcases hm : s.maps[i]? with _ | m
        · exact h
        · refine ⟨fun x hx => ?_, h.2⟩
          rcases List.mem_or_eq_of_mem_set hx with hx | hx
          · exact h.1 x hx
          · rw [hx]; exact hf m (h.1 m (List.mem_of_getElem? hm))
      cases op with
      | new =>
        refine ⟨fun m hm => ?_, h.2⟩
        rcases List.mem_append.1 hm with hm | hm
        · exact h.1 m hm
        · rw [List.mem_singleton.1 hm]; exact ⟨[], by simp [Lists]⟩
      | openAt j =>
        simp only [Spec.step]
        rcases hj : s.snaps[j]? with _ | m
        · exact h
        · refine ⟨fun x hx => ?_, h.2⟩
          rcases List.mem_append.1 hx with hx | hx
          · exact h.1 x hx
          · rw [List.mem_singleton.1 hx]; exact h.2 m (List.mem_of_getElem? hj)
      | insert i k v =>
        refine upd i _ fun m hm => ?_
        split
        · exact hm
        · obtain ⟨J, hJ⟩ := hm; exact hJ.set k _
      | remove i k => exact upd i _ fun m ⟨J, hJ⟩ => hJ.set k _
      | commit i =>
        simp only [Spec.step]
        rcases hi : s.maps[i]? with _ | m
        · exact h
        · refine ⟨h.1, fun x hx => ?_⟩
          rcases List.mem_append.1 hx with hx | hx
          · exact h.2 x hx
          · rw [List.mem_singleton.1 hx]; exact h.1 m (List.mem_of_getElem? hi)
      | proof i k => exact h
  exact key ops ⟨[], []⟩ ⟨fun m hm => (by cases hm), fun m hm => (by cases hm)⟩

end Verif.Pmt.Yellow
