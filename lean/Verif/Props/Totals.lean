import Verif.Props.Anonymity
import Verif.Props.HuangReport
import Verif.Props.MergedMuda
import Verif.Props.MergedRuns

/-! # C83: with merging, only the totals per side and price matter -/

set_option autoImplicit false

namespace PyMarket

open Spec

/-- The total quantity that the bids of a side offer at the price `y`, with prices rounded by `rd`. -/
def Spec.offered (rd : ℚ → ℚ) (df : DF) (side : Bool) (y : ℚ) : ℚ :=
  ((df.filter (fun r => r.buying == side && rd r.price == y)).map (fun r => r.quantity)).sum

/-- Two books offer the same total at every price, divided in any way among bids and users. -/
def Spec.SameTotals (rd : ℚ → ℚ) (df df' : DF) : Prop :=
  ∀ side y, offered rd df side y = offered rd df' side y

/-- The amount of money in the entries of the bid with id `i`. -/
def Spec.moneyOf (ts : List Transaction) (i : ℕ) : ℚ :=
  ((ts.filter (fun t => t.bid == i)).map (fun t => t.quantity * t.price)).sum

/-- In both outcomes the bids of a side with the same rounded price trade the same quantity and the same
amount of money per unit of their quantity. -/
def Spec.SameRates (rd : ℚ → ℚ) (df df' : DF) (ts ts' : List Transaction) : Prop :=
  ∀ r ∈ df, ∀ r' ∈ df', r.buying = r'.buying → rd r.price = rd r'.price →
    tradedBy ts r.label * r'.quantity = tradedBy ts' r'.label * r.quantity ∧
    moneyOf ts r.label * r'.quantity = moneyOf ts' r'.label * r.quantity

section

variable {df nb : DF} {mp : List (List ℕ)}

theorem MergeSpec.offered_eq (h : MergeSpec df nb mp) (side : Bool) (y : ℚ) :
    offered (npRound 5) df side y = offered id nb side y :=
  (h.sum_lift (fun s p => s == side && p == y)).symm

/-- In a merged table the offer at the price of a row is that of the row. -/
theorem MergeSpec.offered_row (h : MergeSpec df nb mp) {row : Row} (hr : row ∈ nb) :
    offered id nb row.buying row.price = row.quantity := by
  have hsingle : nb.filter (fun r => r.buying == row.buying && id r.price == row.price) = [row] := by
    have hmem : row ∈ nb.filter (fun r => r.buying == row.buying && id r.price == row.price) := by
      simp [hr]
    have hnd : (nb.filter (fun r => r.buying == row.buying && id r.price == row.price)).Nodup :=
      (List.Nodup.of_map _ h.table.nodup).sublist List.filter_sublist
    have hall : ∀ r ∈ nb.filter (fun r => r.buying == row.buying && id r.price == row.price), r = row := by
      intro r hr'
      simp only [List.mem_filter, Bool.and_eq_true, beq_iff_eq, id_eq] at hr'
      cases hb : row.buying with
      | true =>
        exact List.inj_on_of_nodup_map h.buyPrices (by simp [hr'.1, hr'.2.1, hb]) (by simp [hr, hb]) hr'.2.2
      | false =>
        exact List.inj_on_of_nodup_map h.sellPrices (by simp [hr'.1, hr'.2.1, hb]) (by simp [hr, hb]) hr'.2.2
    have hperm : (nb.filter (fun r => r.buying == row.buying && id r.price == row.price)).Perm [row] := by
      rw [List.perm_ext_iff_of_nodup hnd (List.nodup_singleton _)]
      intro a
      rw [List.mem_singleton]
      exact ⟨hall a, fun e => e ▸ hmem⟩
    exact List.perm_singleton.mp hperm
  unfold offered
  rw [hsingle]
  simp

/-- A price occurs in a merged table exactly when something is offered at it. -/
theorem MergeSpec.offered_ne_zero (h : MergeSpec df nb mp) (side : Bool) (y : ℚ) :
    offered id nb side y ≠ 0 ↔ ∃ row ∈ nb, row.buying = side ∧ row.price = y := by
  constructor
  · intro h0
    by_contra hc
    push Not at hc
    apply h0
    unfold offered
    rw [List.filter_eq_nil_iff.mpr]
    · rfl
    · intro r hr
      simp only [Bool.and_eq_true, beq_iff_eq, id_eq, not_and]
      exact fun h1 => hc r hr h1
  · rintro ⟨row, hr, rfl, rfl⟩
    rw [h.offered_row hr]
    exact ne_of_gt (h.qty row hr)

end

theorem strict_sorted_ext {l l' : List ℚ} (h : l.Pairwise (· < ·)) (h' : l'.Pairwise (· < ·))
    (he : ∀ x, x ∈ l ↔ x ∈ l') : l = l' := by
  have hp : l.Perm l' := by
    rw [List.perm_ext_iff_of_nodup (h.imp (fun h => ne_of_lt h)) (h'.imp (fun h => ne_of_lt h))]
    exact he
  exact hp.eq_of_pairwise (fun a b _ _ h1 h2 => absurd h1 (not_lt.mpr h2.le)) h h'

/-- Books with the same totals are merged to tables that differ in the users at most. -/
theorem merge_sameTotals (smp smp' : Sampler) {df df' : DF} (ht : IsTable df) (ht' : IsTable df')
    (hp : GroupPos df) (hp' : GroupPos df') (h : SameTotals (npRound 5) df df') :
    ∃ nb mp nb' mp', mergeSamePrice smp df = .ok (nb, mp) ∧ mergeSamePrice smp' df' = .ok (nb', mp') ∧
      MergeSpec df nb mp ∧ MergeSpec df' nb' mp' ∧ nb.map blank = nb'.map blank := by
  obtain ⟨nb, mp, hm, hM⟩ := merge_spec smp ht hp
  obtain ⟨nb', mp', hm', hM'⟩ := merge_spec smp' ht' hp'
  refine ⟨nb, mp, nb', mp', hm, hm', hM, hM', ?_⟩
  obtain ⟨nb0, mp0, e0, _, _, _, _, _, nbuy, nsell, h7, h8, h9, h10, h11⟩ := C34_merge_partition smp df 5 ht
  rw [hm] at e0
  cases e0
  obtain ⟨nb0, mp0, e0, _, _, _, _, _, nbuy', nsell', h7', h8', h9', h10', h11'⟩ := C34_merge_partition smp' df' 5 ht'
  rw [hm'] at e0
  cases e0
  have hoff : ∀ side y, offered id nb side y = offered id nb' side y := by
    intro side y
    rw [← hM.offered_eq, ← hM'.offered_eq, h side y]
  have hmemB : ∀ x, x ∈ nbuy.map (fun r => r.price) ↔ offered id nb true x ≠ 0 := by
    intro x
    rw [hM.offered_ne_zero, List.mem_map, h7]
    constructor
    · rintro ⟨r, hr, rfl⟩; exact ⟨r, List.mem_append_left _ hr, h8 r hr, rfl⟩
    · rintro ⟨r, hr, hb, rfl⟩
      rcases List.mem_append.mp hr with hr | hr
      · exact ⟨r, hr, rfl⟩
      · rw [h9 r hr] at hb; cases hb
  have hmemB' : ∀ x, x ∈ nbuy'.map (fun r => r.price) ↔ offered id nb' true x ≠ 0 := by
    intro x
    rw [hM'.offered_ne_zero, List.mem_map, h7']
    constructor
    · rintro ⟨r, hr, rfl⟩; exact ⟨r, List.mem_append_left _ hr, h8' r hr, rfl⟩
    · rintro ⟨r, hr, hb, rfl⟩
      rcases List.mem_append.mp hr with hr | hr
      · exact ⟨r, hr, rfl⟩
      · rw [h9' r hr] at hb; cases hb
  have hmemS : ∀ x, x ∈ nsell.map (fun r => r.price) ↔ offered id nb false x ≠ 0 := by
    intro x
    rw [hM.offered_ne_zero, List.mem_map, h7]
    constructor
    · rintro ⟨r, hr, rfl⟩; exact ⟨r, List.mem_append_right _ hr, h9 r hr, rfl⟩
    · rintro ⟨r, hr, hb, rfl⟩
      rcases List.mem_append.mp hr with hr | hr
      · rw [h8 r hr] at hb; cases hb
      · exact ⟨r, hr, rfl⟩
  have hmemS' : ∀ x, x ∈ nsell'.map (fun r => r.price) ↔ offered id nb' false x ≠ 0 := by
    intro x
    rw [hM'.offered_ne_zero, List.mem_map, h7']
    constructor
    · rintro ⟨r, hr, rfl⟩; exact ⟨r, List.mem_append_right _ hr, h9' r hr, rfl⟩
    · rintro ⟨r, hr, hb, rfl⟩
      rcases List.mem_append.mp hr with hr | hr
      · rw [h8' r hr] at hb; cases hb
      · exact ⟨r, hr, rfl⟩
  have eB : nbuy.map (fun r => r.price) = nbuy'.map (fun r => r.price) :=
    strict_sorted_ext (List.pairwise_map.mpr h10) (List.pairwise_map.mpr h10')
      (fun x => by rw [hmemB, hmemB', hoff])
  have eS : nsell.map (fun r => r.price) = nsell'.map (fun r => r.price) :=
    strict_sorted_ext (List.pairwise_map.mpr h11) (List.pairwise_map.mpr h11')
      (fun x => by rw [hmemS, hmemS', hoff])
  have eP : nb.map (fun r => r.price) = nb'.map (fun r => r.price) := by
    rw [h7, h7', List.map_append, List.map_append, eB, eS]
  have eb : nb.map (fun r => r.buying) = nb'.map (fun r => r.buying) := by
    have g1 : ∀ {l l' : DF} {b : Bool}, l.map (fun r => r.price) = l'.map (fun r => r.price) →
        (∀ r ∈ l, r.buying = b) → (∀ r ∈ l', r.buying = b) →
        l.map (fun r => r.buying) = l'.map (fun r => r.buying) := by
      intro l l' b e f f'
      rw [List.map_congr_left f, List.map_congr_left f', List.map_const', List.map_const']
      have := congrArg List.length e
      simp only [List.length_map] at this
      rw [this]
    rw [h7, h7', List.map_append, List.map_append, g1 eB h8 h8', g1 eS h9 h9']
  have hlen : nb.length = nb'.length := by simpa using congrArg List.length eP
  apply List.ext_getElem
  · simpa using hlen
  · intro k k1 k2
    simp only [List.length_map] at k1 k2
    simp only [List.getElem_map]
    have p : nb[k].price = nb'[k].price := by
      have := congrArg (fun l : List ℚ => l[k]?) eP
      simpa [k1, k2] using this
    have b : nb[k].buying = nb'[k].buying := by
      have := congrArg (fun l : List Bool => l[k]?) eb
      simpa [k1, k2] using this
    have q : nb[k].quantity = nb'[k].quantity := by
      rw [← hM.offered_row (List.getElem_mem k1), ← hM'.offered_row (List.getElem_mem k2), p, b, hoff]
    have l : nb[k].label = nb'[k].label := by
      rw [hM.table.label (List.getElem?_eq_getElem k1), hM'.table.label (List.getElem?_eq_getElem k2)]
    unfold blank
    rw [← q, ← p, ← b, ← l]

theorem moneyOf_eq (ts : List Transaction) (i : ℕ) :
    moneyOf ts i = tradedBy (ts.map (fun t => { t with quantity := t.quantity * t.price })) i := by
  unfold moneyOf tradedBy
  rw [List.filter_map, List.map_map]
  rfl

theorem splitT_money (df : DF) (mp : List (List ℕ)) (ts : List Transaction) :
    (ts.flatMap (splitT df mp)).map (fun t => { t with quantity := t.quantity * t.price }) =
      (ts.map (fun t => { t with quantity := t.quantity * t.price })).flatMap (splitT df mp) := by
  induction ts with
  | nil => rfl
  | cons t ts ih =>
    rw [List.flatMap_cons, List.map_append, ih, List.map_cons, List.flatMap_cons]
    congr 1
    unfold splitT
    rw [List.map_map]
    apply List.map_congr_left
    intro i _
    simp only [Function.comp_apply]
    congr 1
    ring

/-- The split logs of the same log have the same rates. -/
theorem sameRates_lift {df df' nb nb' : DF} {mp mp' : List (List ℕ)} (ht : IsTable df) (ht' : IsTable df')
    (hM : MergeSpec df nb mp) (hM' : MergeSpec df' nb' mp') (hb : nb.map blank = nb'.map blank)
    {ts : List Transaction} (hts : ∀ t ∈ ts, t.bid < nb.length) :
    SameRates (npRound 5) df df' (ts.flatMap (splitT df mp)) (ts.flatMap (splitT df' mp')) := by
  have hlen : nb.length = nb'.length := by simpa using congrArg List.length hb
  intro r hr r' hr' hside hprice
  obtain ⟨k, ids, hk, hids, hmem⟩ := hM.exists_group (ht.label_lt hr)
  obtain ⟨k', ids', hk', hids', hmem'⟩ := hM'.exists_group (ht'.label_lt hr')
  obtain ⟨row, i1, a1, a2, _, a4, a5, a6⟩ := hM.get hk
  obtain ⟨row', i1', b1, b2, _, b4, b5, b6⟩ := hM'.get hk'
  rw [hids] at a2; cases a2
  rw [hids'] at b2; cases b2
  obtain ⟨s, s1, s2, s3⟩ := a6 _ hmem
  rw [ht.get_label hr] at s1; cases s1
  obtain ⟨s', s1', s2', s3'⟩ := b6 _ hmem'
  rw [ht'.get_label hr'] at s1'; cases s1'
  -- both groups have the same position
  have hkn : k' < nb.length := hlen ▸ hk'
  have hblank : blank (nb[k']'hkn) = blank row' := by
    have := congrArg (fun l : DF => l[k']?) hb
    simp only [List.getElem?_map, List.getElem?_eq_getElem hkn, b1, Option.map_some, Option.some.injEq] at this
    exact this
  have e1 : (nb[k']'hkn).buying = row.buying := by
    have : (blank (nb[k']'hkn)).buying = (blank row').buying := by rw [hblank]
    change (nb[k']'hkn).buying = row'.buying at this
    rw [this, ← s2', ← hside, s2]
  have e2 : (nb[k']'hkn).price = row.price := by
    have : (blank (nb[k']'hkn)).price = (blank row').price := by rw [hblank]
    change (nb[k']'hkn).price = row'.price at this
    rw [this, ← s3', ← hprice, s3]
  have hrow : row ∈ nb := List.mem_of_getElem? a1
  have hsame : nb[k']'hkn = row := by
    cases hbuy : row.buying with
    | true =>
      exact List.inj_on_of_nodup_map hM.buyPrices (by simp [hbuy, e1]) (by simp [hrow, hbuy]) e2
    | false =>
      exact List.inj_on_of_nodup_map hM.sellPrices (by simp [hbuy, e1]) (by simp [hrow, hbuy]) e2
  have hkk : k = k' := by
    rw [← hM.table.label a1, ← hM.table.label (List.getElem?_eq_getElem hkn), hsame]
  have hq : row.quantity = row'.quantity := by
    have : (blank (nb[k']'hkn)).quantity = (blank row').quantity := by rw [hblank]
    change (nb[k']'hkn).quantity = row'.quantity at this
    rw [← this, hsame]
  subst hkk
  have key : ∀ ts : List Transaction, (∀ t ∈ ts, t.bid < nb.length) →
      tradedBy (ts.flatMap (splitT df mp)) r.label * r'.quantity =
        tradedBy (ts.flatMap (splitT df' mp')) r'.label * r.quantity := by
    intro ts hts
    rw [hM.tradedBy_lift hts hids a1 hmem (ht.get_label hr),
      hM'.tradedBy_lift (fun t h => hlen ▸ hts t h) hids' b1 hmem' (ht'.get_label hr'), hq]
    ring
  refine ⟨key ts hts, ?_⟩
  rw [moneyOf_eq, moneyOf_eq, splitT_money, splitT_money]
  apply key
  intro t htt
  obtain ⟨t0, h0, rfl⟩ := List.mem_map.mp htt
  exact hts t0 h0

/-- The run of an algorithm that does not look at users on two books with the same totals. -/
theorem sameTotals_run (smp smp' : Sampler) (algo : Algo) (ha : ∀ df, algo (df.map blank) = algo df)
    {df df' : DF} (ht : IsTable df) (ht' : IsTable df') (hp : GroupPos df) (hp' : GroupPos df')
    (h : SameTotals (npRound 5) df df')
    (hok : ∀ nb : DF, IsTable nb → Pos nb → ∃ tm ex, mechRun algo nb = .ok (tm, ex) ∧
      ∀ t ∈ tm.trans, t.bid < nb.length) :
    ∃ tm tm' ex, mechanism smp true algo df = .ok (tm, ex) ∧ mechanism smp' true algo df' = .ok (tm', ex) ∧
      SameRates (npRound 5) df df' tm.trans tm'.trans := by
  obtain ⟨nb, mp, nb', mp', hm, hm', hM, hM', hb⟩ := merge_sameTotals smp smp' ht ht' hp hp' h
  obtain ⟨tm, ex, hr, hlt⟩ := hok nb hM.table (hM.pos hp.1)
  have hr' : mechRun algo nb' = .ok (tm, ex) := by
    rw [← blank_keeps.mechRun_map algo ha, ← hb, blank_keeps.mechRun_map algo ha, hr]
  have hlen : nb.length = nb'.length := by simpa using congrArg List.length hb
  obtain ⟨t1, e1, e2⟩ := mechanism_merge smp algo hm hM hr hlt
  obtain ⟨t1', e1', e2'⟩ := mechanism_merge smp' algo hm' hM' hr' (fun t h => hlen ▸ hlt t h)
  refine ⟨t1, t1', ex, e1, e1', ?_⟩
  rw [e2, e2']
  exact sameRates_lift ht ht' hM hM' hb hlt

theorem huang_mechRun_ok (S : Sorter) (nb : DF) (ht : IsTable nb) (hp : Pos nb) :
    ∃ tm ex, mechRun (huangAuction S) nb = .ok (tm, ex) ∧ ∀ t ∈ tm.trans, t.bid < nb.length := by
  rcases mechRun_two_sided (huangAuction S) nb with h | h
  · rw [h]
    rcases huang_direct S ht hp.nonNeg with h' | ⟨tm, ps, pb, q, h', hO, _⟩
    · exact ⟨_, _, h', by intro t ht; cases ht⟩
    · exact ⟨_, _, h', fun t ht => (hO.trade t ht).id_lt⟩
  · exact ⟨_, _, h, by intro t ht; cases ht⟩

/-- **C83 (Huang).** `Market.run('huang')` depends on the totals per side and rounded price only: on two
books with the same totals it reports the same, and bids of a side with the same rounded price trade the
same quantity and money per unit offered, within each book and across the two. -/
theorem C83_huang (S : Sorter) (smp smp' : Sampler) (df df' : DF) (ht : IsTable df) (ht' : IsTable df')
    (hp : GroupPos df) (hp' : GroupPos df') (rd : ℚ → ℚ) (hrd : ∀ p, IsRounded 5 p (rd p))
    (h : SameTotals rd df df') :
    ∃ tm tm' ex, runAlgo S smp .huang df = .ok (tm, ex) ∧ runAlgo S smp' .huang df' = .ok (tm', ex) ∧
      SameRates rd df df' tm.trans tm'.trans := by
  obtain rfl : rd = npRound 5 := funext (fun p => isRounded_unique (hrd p) (npRound_isRounded 5 p))
  exact sameTotals_run smp smp' (huangAuction S) (blank_keeps.huangAuction_map S) ht ht' hp hp' h
    (huang_mechRun_ok S)

/-- **C83 (P2P).** The same for `Market.run('p2p', merge=True)`, for every random schedule. -/
theorem C83_p2p (S : Sorter) (smp smp' : Sampler) (c : ℚ) (choice : ℕ → ℕ) (df df' : DF) (ht : IsTable df)
    (ht' : IsTable df') (hp : GroupPos df) (hp' : GroupPos df') (rd : ℚ → ℚ)
    (hrd : ∀ p, IsRounded 5 p (rd p)) (h : SameTotals rd df df') :
    ∃ tm tm' ex, runAlgo S smp (.p2p true c choice) df = .ok (tm, ex) ∧
      runAlgo S smp' (.p2p true c choice) df' = .ok (tm', ex) ∧ SameRates rd df df' tm.trans tm'.trans := by
  obtain rfl : rd = npRound 5 := funext (fun p => isRounded_unique (hrd p) (npRound_isRounded 5 p))
  refine sameTotals_run smp smp' (p2pRandom c choice) (blank_keeps.p2pRandom_map c choice) ht ht' hp hp' h ?_
  intro nb hn hpn
  obtain ⟨tm, ex, h1, h2, _⟩ := p2p_conserves c choice hn hpn.nonNeg.qty
  exact ⟨tm, ex, h1, fun t h => (h2.entries t h).1⟩

theorem muda_mechRun_blank {S : Sorter} {coin : ℕ → Bool} {a b : DF} {tm tm' : TransactionManager}
    {ex ex' : Extra} (hab : a.map blank = b.map blank)
    (h1 : mechRun (muda S coin) a = .ok (tm, ex)) (h2 : mechRun (muda S coin) b = .ok (tm', ex')) :
    tm = tm' ∧ SameButFees ex ex' := by
  have hl : a.length = b.length := by simpa using congrArg List.length hab
  have hl2 : (buys a).length = (buys b).length := by
    have := congrArg List.length (congrArg buys hab)
    rwa [blank_keeps.buys_map, blank_keeps.buys_map, List.length_map, List.length_map] at this
  unfold mechRun at h1 h2
  simp only [hl, hl2] at h1
  split at h1
  · rename_i hc
    simp only [if_pos hc] at h2
    exact muda_blank hab h1 h2
  · rename_i hc
    simp only [if_neg hc] at h2
    cases h1; cases h2
    exact ⟨rfl, rfl⟩

/-- **C83 (MUDA).** If `Market.run('muda', merge=True)` returns on two books with the same totals, both
runs use the same halves and prices and have the same rates; only the fees can differ. -/
theorem C83_muda (S : Sorter) (smp smp' : Sampler) (coin : ℕ → Bool) (df df' : DF) (ht : IsTable df)
    (ht' : IsTable df') (hp : GroupPos df) (hp' : GroupPos df') (rd : ℚ → ℚ)
    (hrd : ∀ p, IsRounded 5 p (rd p)) (h : SameTotals rd df df') (tm tm' : TransactionManager)
    (ex ex' : Extra) (h1 : runAlgo S smp (.muda true coin) df = .ok (tm, ex))
    (h2 : runAlgo S smp' (.muda true coin) df' = .ok (tm', ex')) :
    SameButFees ex ex' ∧ SameRates rd df df' tm.trans tm'.trans := by
  obtain rfl : rd = npRound 5 := funext (fun p => isRounded_unique (hrd p) (npRound_isRounded 5 p))
  obtain ⟨nb, mp, nb', mp', hm, hm', hM, hM', hb⟩ := merge_sameTotals smp smp' ht ht' hp hp' h
  obtain ⟨t0, r1⟩ := mechanism_merge_inv smp (muda S coin) hm h1
  obtain ⟨t0', r2⟩ := mechanism_merge_inv smp' (muda S coin) hm' h2
  obtain ⟨e, hex⟩ := muda_mechRun_blank hb r1 r2
  subst e
  have hlen : nb.length = nb'.length := by simpa using congrArg List.length hb
  obtain ⟨hC, _⟩ := muda_mechRun hM.table (fun r hr => (hM.qty r hr).le) r1
  have hlt : ∀ t ∈ t0.trans, t.bid < nb.length := fun t h => (hC.entries t h).1
  obtain ⟨t1, e1, e2⟩ := mechanism_merge smp (muda S coin) hm hM r1 hlt
  obtain ⟨t1', e1', e2'⟩ := mechanism_merge smp' (muda S coin) hm' hM' r2 (fun t h => hlen ▸ hlt t h)
  have d1 : runAlgo S smp (.muda true coin) df = mechanism smp true (muda S coin) df := rfl
  have d2 : runAlgo S smp' (.muda true coin) df' = mechanism smp' true (muda S coin) df' := rfl
  rw [d1, e1] at h1
  rw [d2, e1'] at h2
  cases h1; cases h2
  refine ⟨hex, ?_⟩
  rw [e2, e2']
  exact sameRates_lift ht ht' hM hM' hb hlt

/-! ## Splitting a bid -/

theorem offered_labelFrom (rd : ℚ → ℚ) (n : ℕ) (l : List Bid) (side : Bool) (y : ℚ) :
    offered rd (labelFrom n l) side y =
      (l.map (fun b => if b.buying == side && rd b.price == y then b.quantity else 0)).sum := by
  unfold offered
  induction l generalizing n with
  | nil => rfl
  | cons b l ih =>
    unfold labelFrom
    rw [List.filter_cons, List.map_cons, List.sum_cons, ← ih (n + 1)]
    split <;> simp

/-- The outcome `ts'` of a book in which the bid at position `k` of `n` is submitted as two bids, at the
positions `k` and `n`, is that of the original book: all others trade the same for the same money, and the
two parts together what the bid would have traded, for the same money. -/
def Spec.SplitNeutral (k n : ℕ) (ts ts' : List Transaction) : Prop :=
  (∀ i < n, i ≠ k → tradedBy ts' i = tradedBy ts i ∧ moneyOf ts' i = moneyOf ts i) ∧
  tradedBy ts' k + tradedBy ts' n = tradedBy ts k ∧ moneyOf ts' k + moneyOf ts' n = moneyOf ts k

theorem split_bid (l₁ l₂ : List Bid) (b b₁ b₂ : Bid)
    (hp : Pos (labelFrom 0 (l₁ ++ b :: l₂))) (h₁ : 0 < b₁.quantity) (h₂ : 0 < b₂.quantity)
    (hq : b₁.quantity + b₂.quantity = b.quantity) (hp₁ : b₁.price = b.price) (hp₂ : b₂.price = b.price)
    (hs₁ : b₁.buying = b.buying) (hs₂ : b₂.buying = b.buying) :
    Pos (labelFrom 0 (l₁ ++ b₁ :: l₂ ++ [b₂])) ∧
    SameTotals (npRound 5) (labelFrom 0 (l₁ ++ b :: l₂)) (labelFrom 0 (l₁ ++ b₁ :: l₂ ++ [b₂])) ∧
    ∀ ts ts', SameRates (npRound 5) (labelFrom 0 (l₁ ++ b :: l₂)) (labelFrom 0 (l₁ ++ b₁ :: l₂ ++ [b₂])) ts ts' →
      SplitNeutral l₁.length (l₁ ++ b :: l₂).length ts ts' := by
  have hget : ∀ (l : List Bid) (i : ℕ) (x : Bid), l[i]? = some x →
      (labelFrom 0 l)[i]? = some { toBid := x, label := i } := by
    intro l i x h
    rw [labelFrom_getElem?, h]
    simp
  have hp' : Pos (labelFrom 0 (l₁ ++ b₁ :: l₂ ++ [b₂])) := by
    have key : ∀ x ∈ l₁ ++ b :: l₂, 0 < x.quantity ∧ 0 ≤ x.price := by
      intro x hx
      obtain ⟨i, hi⟩ := List.getElem?_of_mem hx
      exact hp _ (List.mem_of_getElem? (hget _ i x hi))
    have hb := key b (by simp)
    intro r hr
    have hx : r.toBid ∈ l₁ ++ b₁ :: l₂ ++ [b₂] := by
      rw [← labelFrom_map_toBid 0 (l₁ ++ b₁ :: l₂ ++ [b₂])]
      exact List.mem_map_of_mem hr
    simp only [List.append_assoc, List.cons_append, List.mem_append, List.mem_cons, List.not_mem_nil,
      or_false] at hx
    rcases hx with hx | hx | hx | hx
    · exact key _ (by simp [hx])
    · rw [hx]; exact ⟨h₁, by rw [hp₁]; exact hb.2⟩
    · exact key _ (by simp [hx])
    · rw [hx]; exact ⟨h₂, by rw [hp₂]; exact hb.2⟩
  refine ⟨hp', ?_, ?_⟩
  · intro side y
    rw [offered_labelFrom, offered_labelFrom]
    simp only [List.map_append, List.map_cons, List.sum_append, List.sum_cons, List.map_nil, List.sum_nil,
      hp₁, hp₂, hs₁, hs₂]
    rw [← hq]
    split <;> ring
  intro ts ts' hR
  refine ⟨?_, ?_⟩
  · intro i hi hne
    obtain ⟨x, hx⟩ : ∃ x, (l₁ ++ b :: l₂)[i]? = some x := ⟨_, List.getElem?_eq_getElem hi⟩
    have hx' : (l₁ ++ b₁ :: l₂ ++ [b₂])[i]? = some x := by
      rw [List.getElem?_append_left (by simpa using hi), ← hx]
      rcases Nat.lt_or_gt_of_ne hne with hlt | hgt
      · rw [List.getElem?_append_left hlt, List.getElem?_append_left hlt]
      · rw [List.getElem?_append_right hgt.le, List.getElem?_append_right hgt.le]
        obtain ⟨m, hm⟩ : ∃ m, i - l₁.length = m + 1 := ⟨i - l₁.length - 1, by omega⟩
        rw [hm, List.getElem?_cons_succ, List.getElem?_cons_succ]
    have m1 := List.mem_of_getElem? (hget _ i x hx)
    have m2 := List.mem_of_getElem? (hget _ i x hx')
    obtain ⟨g1, g2⟩ := hR _ m1 _ m2 rfl rfl
    have hpos := (hp _ m1).1
    exact ⟨(mul_right_cancel₀ hpos.ne' g1).symm, (mul_right_cancel₀ hpos.ne' g2).symm⟩
  · have m0 := List.mem_of_getElem? (hget (l₁ ++ b :: l₂) l₁.length b (by simp))
    have m1 := List.mem_of_getElem? (hget (l₁ ++ b₁ :: l₂ ++ [b₂]) l₁.length b₁ (by simp))
    have m2 := List.mem_of_getElem? (hget (l₁ ++ b₁ :: l₂ ++ [b₂]) (l₁ ++ b :: l₂).length b₂
      (by rw [List.getElem?_append_right (by simp)]; simp))
    obtain ⟨a1, a2⟩ := hR _ m0 _ m1 hs₁.symm (by simp only; rw [hp₁])
    obtain ⟨c1, c2⟩ := hR _ m0 _ m2 hs₂.symm (by simp only; rw [hp₂])
    have hpos := (hp _ m0).1
    simp only at a1 a2 c1 c2 hpos
    constructor
    · apply mul_right_cancel₀ hpos.ne'
      rw [add_mul, ← a1, ← c1, ← mul_add, hq]
    · apply mul_right_cancel₀ hpos.ne'
      rw [add_mul, ← a2, ← c2, ← mul_add, hq]

/-- **C83 (splitting a bid).** In `Market.run('huang')` nothing changes for anybody when a bid is
submitted as two bids with the same price: the parts together trade what the bid would have traded, for
the same money, and all others trade the same. -/
theorem C83_split_huang (S : Sorter) (smp smp' : Sampler) (l₁ l₂ : List Bid) (b b₁ b₂ : Bid)
    (hp : Pos (labelFrom 0 (l₁ ++ b :: l₂))) (h₁ : 0 < b₁.quantity) (h₂ : 0 < b₂.quantity)
    (hq : b₁.quantity + b₂.quantity = b.quantity) (hp₁ : b₁.price = b.price) (hp₂ : b₂.price = b.price)
    (hs₁ : b₁.buying = b.buying) (hs₂ : b₂.buying = b.buying) :
    ∃ tm tm' ex, runAlgo S smp .huang (labelFrom 0 (l₁ ++ b :: l₂)) = .ok (tm, ex) ∧
      runAlgo S smp' .huang (labelFrom 0 (l₁ ++ b₁ :: l₂ ++ [b₂])) = .ok (tm', ex) ∧
      SplitNeutral l₁.length (l₁ ++ b :: l₂).length tm.trans tm'.trans := by
  obtain ⟨hp', hT, hN⟩ := split_bid l₁ l₂ b b₁ b₂ hp h₁ h₂ hq hp₁ hp₂ hs₁ hs₂
  obtain ⟨tm, tm', ex, e1, e2, hR⟩ := C83_huang S smp smp' _ _ (isTable_labelFrom _) (isTable_labelFrom _)
    hp.groupPos hp'.groupPos (npRound 5) (npRound_isRounded 5) hT
  exact ⟨tm, tm', ex, e1, e2, hN _ _ hR⟩

/-- **C83 (splitting a bid, P2P).** The same for `Market.run('p2p', merge=True)` with the same schedule. -/
theorem C83_split_p2p (S : Sorter) (smp smp' : Sampler) (c : ℚ) (choice : ℕ → ℕ) (l₁ l₂ : List Bid) (b b₁ b₂ : Bid)
    (hp : Pos (labelFrom 0 (l₁ ++ b :: l₂))) (h₁ : 0 < b₁.quantity) (h₂ : 0 < b₂.quantity)
    (hq : b₁.quantity + b₂.quantity = b.quantity) (hp₁ : b₁.price = b.price) (hp₂ : b₂.price = b.price)
    (hs₁ : b₁.buying = b.buying) (hs₂ : b₂.buying = b.buying) :
    ∃ tm tm' ex, runAlgo S smp (.p2p true c choice) (labelFrom 0 (l₁ ++ b :: l₂)) = .ok (tm, ex) ∧
      runAlgo S smp' (.p2p true c choice) (labelFrom 0 (l₁ ++ b₁ :: l₂ ++ [b₂])) = .ok (tm', ex) ∧
      SplitNeutral l₁.length (l₁ ++ b :: l₂).length tm.trans tm'.trans := by
  obtain ⟨hp', hT, hN⟩ := split_bid l₁ l₂ b b₁ b₂ hp h₁ h₂ hq hp₁ hp₂ hs₁ hs₂
  obtain ⟨tm, tm', ex, e1, e2, hR⟩ := C83_p2p S smp smp' c choice _ _ (isTable_labelFrom _)
    (isTable_labelFrom _) hp.groupPos hp'.groupPos (npRound 5) (npRound_isRounded 5) hT
  exact ⟨tm, tm', ex, e1, e2, hN _ _ hR⟩

/-- **C83 (splitting a bid, MUDA).** The same for `Market.run('muda', merge=True)` with the same coins,
whenever both runs return. -/
theorem C83_split_muda (S : Sorter) (smp smp' : Sampler) (coin : ℕ → Bool) (l₁ l₂ : List Bid) (b b₁ b₂ : Bid)
    (hp : Pos (labelFrom 0 (l₁ ++ b :: l₂))) (h₁ : 0 < b₁.quantity) (h₂ : 0 < b₂.quantity)
    (hq : b₁.quantity + b₂.quantity = b.quantity) (hp₁ : b₁.price = b.price) (hp₂ : b₂.price = b.price)
    (hs₁ : b₁.buying = b.buying) (hs₂ : b₂.buying = b.buying)
    (tm tm' : TransactionManager) (ex ex' : Extra)
    (r1 : runAlgo S smp (.muda true coin) (labelFrom 0 (l₁ ++ b :: l₂)) = .ok (tm, ex))
    (r2 : runAlgo S smp' (.muda true coin) (labelFrom 0 (l₁ ++ b₁ :: l₂ ++ [b₂])) = .ok (tm', ex')) :
    SameButFees ex ex' ∧ SplitNeutral l₁.length (l₁ ++ b :: l₂).length tm.trans tm'.trans := by
  obtain ⟨hp', hT, hN⟩ := split_bid l₁ l₂ b b₁ b₂ hp h₁ h₂ hq hp₁ hp₂ hs₁ hs₂
  obtain ⟨hE, hR⟩ := C83_muda S smp smp' coin _ _ (isTable_labelFrom _) (isTable_labelFrom _)
    hp.groupPos hp'.groupPos (npRound 5) (npRound_isRounded 5) hT tm tm' ex ex' r1 r2
  exact ⟨hE, hN _ _ hR⟩

/-- The bids of `huangBook` with the same totals divided differently: the buyers at 10 offer 2 and 2
instead of 1 and 3, the large seller is split. -/
def regroupedBook : DF := labelFrom 0
  [⟨2, 10, 0, true, 0, true⟩, ⟨6, 5, 6, false, 0, true⟩, ⟨2, 10, 0, true, 0, true⟩,
   ⟨1, 8, 2, true, 0, true⟩, ⟨2, 6, 3, true, 0, true⟩, ⟨1, 2, 4, false, 0, true⟩,
   ⟨1, 3, 5, false, 0, true⟩, ⟨4, 5, 7, false, 0, true⟩]

/-- Non-vacuity of C83: the two books have the same totals (at the prices that occur, hence at all) … -/
example : IsTable regroupedBook ∧ Pos regroupedBook ∧ SameTotals (npRound 5) huangBook regroupedBook := by
  refine ⟨by decide +kernel, by decide +kernel, ?_⟩
  intro side y
  have h1 : huangBook = labelFrom 0 (huangBook.map (fun r => r.toBid)) := by decide +kernel
  have h2 : regroupedBook = labelFrom 0 (regroupedBook.map (fun r => r.toBid)) := by decide +kernel
  have e : ∀ p ∈ [(10 : ℚ), 8, 6, 2, 3, 5], npRound 5 p = p := by decide +kernel
  rw [h1, h2, offered_labelFrom, offered_labelFrom]
  simp only [huangBook, regroupedBook, labelFrom, List.map_cons, List.map_nil, List.sum_cons, List.sum_nil]
  rw [e 10 (by simp), e 8 (by simp), e 6 (by simp), e 2 (by simp), e 3 (by simp), e 5 (by simp)]
  cases side <;> simp <;> split_ifs <;> norm_num

/-- … and the outcome of the second is that of `huangBook`, redistributed. -/
example : runAlgo stableSorter headSampler .huang regroupedBook = .ok
    (⟨5, [⟨5, 1, 5, -1, false⟩, ⟨6, 1, 5, -1, false⟩, ⟨0, 1, 6, -1, false⟩, ⟨2, 1, 6, -1, false⟩,
      ⟨3, 0, 6, -1, false⟩]⟩, .huang ((5 : ℚ) : Ext) ((6 : ℚ) : Ext) 2) := by decide +kernel

/-- Non-vacuity of the MUDA parts: `keptBook` and the same book with the second bid, 1 at 10, submitted as
1/4 and 3/4, return and trade. -/
example :
    let l₂ : List Bid := (keptBook.map (fun r => r.toBid)).drop 2
    let bs : List Bid := [⟨1, 10, 0, true, 0, true⟩] ++ ⟨1, 10, 1, true, 0, true⟩ :: l₂
    let bs' : List Bid := [⟨1, 10, 0, true, 0, true⟩] ++ ⟨1 / 4, 10, 1, true, 0, true⟩ :: l₂ ++
      [⟨3 / 4, 10, 0, true, 0, true⟩]
    labelFrom 0 bs = keptBook ∧
    let run := fun l => runAlgo stableSorter headSampler (.muda true (fun n => decide (n % 2 = 0))) (labelFrom 0 l)
    ((run bs).toOption.any (fun r => decide (0 < tradedBy r.1.trans 1)) &&
      (run bs').toOption.any (fun r => decide (0 < tradedBy r.1.trans 1 ∧
        tradedBy r.1.trans bs.length = 3 * tradedBy r.1.trans 1))) = true := by
  decide +kernel

/-- **C83, the part that fails without merging.** `huang_auction` itself, which the class only calls with
merged bids, treats the parts of a bid differently from the bid: every bid is cut by the same amount, so
the buyer of 4 at 10 gets 3/2 of the 2 units, but only 2/3 when the bid is submitted in two parts. -/
theorem C83_direct_refuted :
    let df := labelFrom 0 [⟨4, 10, 0, true, 0, true⟩, ⟨3, 9, 1, true, 0, true⟩, ⟨1, 8, 2, true, 0, true⟩,
      ⟨2, 1, 3, false, 0, true⟩, ⟨10, 2, 4, false, 0, true⟩]
    let df' := labelFrom 0 [⟨2, 10, 0, true, 0, true⟩, ⟨3, 9, 1, true, 0, true⟩, ⟨1, 8, 2, true, 0, true⟩,
      ⟨2, 1, 3, false, 0, true⟩, ⟨10, 2, 4, false, 0, true⟩, ⟨2, 10, 0, true, 0, true⟩]
    Pos df ∧ Pos df' ∧
    (huangAuction stableSorter df).toOption.map (fun r => tradedBy r.1.trans 0) = some (3 / 2) ∧
    (huangAuction stableSorter df').toOption.map (fun r => tradedBy r.1.trans 0 + tradedBy r.1.trans 5) =
      some (2 / 3) := by
  decide +kernel

end PyMarket
