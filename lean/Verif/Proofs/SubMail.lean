import Verif.Proofs.SubStreams
import Verif.Props.Mail

/-!
# Something that looks like the start of a mail, but is not
-/

namespace Strigi
namespace Walk

open Mail Mime

variable {σ : Type} {P : StreamOps σ UInt8} {c : List UInt8} {s0 : σ}

theorem mail_looks (hI : IsStream P c Failure.never True s0) (h0 : P.position s0 = 0) (hc : c.length < 2 ^ 20) (stale : Int) :
    ∀ (fuel : Nat) (s s' : Mail.State σ) (st : LineState) (k : Int), Looks P s0 s.input → P.position s.input = 0 → s.nextLine = 0 → s.status = .ok →
      0 ≤ k → k ≤ c.length → lineLoop P stale fuel s st k = .ok s' → s'.status = .eof → Looks P s0 s'.input := by
  intro fuel
  induction fuel with
  | zero => intro s s' st k _ _ _ _ _ _ e; cases e
  | succ fuel ih =>
    intro s s' st k hl hp hn hst hk hk2 e he
    have C := Contract.of_behaves P c Failure.never True
    unfold lineLoop at e
    obtain ⟨⟨i, n, d⟩, e1, e⟩ := BufferedStream.bind_eq_ok e
    have hl1 : Looks P s0 i := .read hl hp (by omega) (by omega) (Or.inr (by unfold maxLineSize; omega)) e1
    dsimp only at e
    by_cases hs : n < k + 1
    · rw [if_pos hs] at e
      cases e; exact hl1
    rw [if_neg hs] at e
    obtain ⟨⟨i2, r⟩, e2, e⟩ := BufferedStream.bind_eq_ok e
    rw [hn] at e2
    have hl2 : Looks P s0 i2 := .back hl1 e2
    obtain ⟨hi, hB⟩ := hl1.window hI h0
    have hr := C.range hB
    obtain ⟨i3, e3, hp3, _, _, _⟩ := C.reset hB (q := 0) (by omega) (by omega)
    rw [e2] at e3; cases e3
    obtain ⟨_, hB0⟩ := hl.window hI h0
    obtain ⟨_, _, _, e1', rk, _⟩ := C.read hB0 (min := k + 1) (max := maxLineSize) (by omega) (Or.inr (by unfold maxLineSize; omega))
    rw [e1] at e1'; cases e1'
    have hnc : n ≤ c.length ∧ d.length = n := by
      cases rk with
      | data pos items inside _ _ _ _ => rw [hp] at inside items; exact ⟨by omega, by rw [items]; exact slice_length (by omega) (by omega) (by omega)⟩
      | ended none nodata _ _ _ => exact absurd none (by omega)
      | failed a _ _ => exact absurd a id
    dsimp only at e
    by_cases g1 : P.status i2 = .error
    · rw [if_pos g1] at e; cases e; cases he
    rw [if_neg g1] at e
    by_cases g2 : k ≥ maxLineSize
    · rw [if_pos g2] at e; cases e; cases he
    rw [if_neg g2] at e
    rcases hsc : scanLine st k (slice d k (n - k)) with ⟨st', k', o⟩
    rw [hsc] at e
    have hk' : o = none → k' = k + (slice d k (n - k)).length := by
      intro ho
      subst ho
      rcases scan_append [] (slice d k (n - k)) st k with ⟨st2, g, _⟩ | ⟨st2, p, q, g, _⟩
      · rw [hsc] at g; cases g; rfl
      · rw [hsc] at g; cases g
    cases o with
    | some len =>
      dsimp only at e
      cases e
      rw [show s.status = _ from he] at hst; cases hst
    | none =>
      dsimp only at e
      have hk' := hk' rfl
      have hsl : ((slice d k (n - k)).length : Int) = n - k := slice_length (by omega) (by omega) (by omega)
      exact ih { s with input := i2, line := d } _ _ _ hl2 hp3 hn hst (by omega) (by omega) e he

theorem lineLoop_entry (stale : Int) : ∀ (fuel : Nat) (s s' : Mail.State σ) (st : LineState) (k : Int), lineLoop P stale fuel s st k = .ok s' → s'.entry = s.entry := by
  intro fuel
  induction fuel with
  | zero => intro s s' st k e; cases e
  | succ fuel ih =>
    intro s s' st k e
    unfold lineLoop at e
    obtain ⟨⟨i, n, d⟩, e1, e⟩ := BufferedStream.bind_eq_ok e
    dsimp only at e
    by_cases hs : n < k + 1
    · rw [if_pos hs] at e
      cases e; rfl
    rw [if_neg hs] at e
    obtain ⟨⟨i2, r⟩, e2, e⟩ := BufferedStream.bind_eq_ok e
    dsimp only at e
    by_cases g1 : P.status i2 = .error
    · rw [if_pos g1] at e; cases e; rfl
    rw [if_neg g1] at e
    by_cases g2 : k ≥ maxLineSize
    · rw [if_pos g2] at e; cases e; rfl
    rw [if_neg g2] at e
    rcases hsc : scanLine st k (slice d k (n - k)) with ⟨st', k', _ | len⟩
    · rw [hsc] at e
      exact ih { s with input := i2, line := d } _ _ _ e
    · rw [hsc] at e
      dsimp only at e
      cases e; rfl

/-- `Vain` for mails. -/
theorem mail_vain (conv : List UInt8 → List UInt8 → List UInt8) (stale : Int) (N : Nat) {fuel : Nat} (hf : c.length + 1 < fuel) (hl : LastLine c) :
    Vain (mailReader conv stale N fuel) c := by
  intro σ P s hI h0
  obtain ⟨s', e1, h1, h2⟩ := Props.C60_last_line (P := P) (c := c) (s := (⟨.ok, s, none, {}, 0, 0, fun _ => [], [], [], 0⟩ : Mail.State σ)) hI h0 stale hl hf
  have hlook : Looks P s s'.input ∧ s'.entry = none := by
    have e := e1
    unfold readHeaderLine at e
    obtain ⟨⟨i, r⟩, e2, e⟩ := BufferedStream.bind_eq_ok e
    dsimp only at e2 e
    have C := Contract.of_behaves P c Failure.never True
    obtain ⟨i', e3, hp, _, _, _⟩ := C.reset hI (q := 0) (by omega) (by omega)
    rw [e2] at e3; cases e3
    refine ⟨mail_looks hI h0 hl.1 stale fuel _ _ _ 0 (.back .start e2) hp rfl rfl (by omega) (by omega) e h1, ?_⟩
    exact lineLoop_entry stale fuel _ _ _ _ e
  have en : Mail.new P conv stale fuel s = .ok s' := by
    unfold Mail.new readHeader
    rw [e1, Res.bind_ok]
    obtain ⟨f, rfl⟩ : ∃ f, fuel = f + 1 := ⟨fuel - 1, by omega⟩
    unfold headerLoop
    rw [if_neg (by rw [h1]; simp)]
  refine ⟨s', { s' with entry := none }, en, ?_, rfl, ?_⟩
  · show Mail.nextEntry P conv stale fuel s' = _
    unfold Mail.nextEntry
    rw [if_pos (by rw [h1]; decide)]
    rfl
  · exact hlook.1

end Walk
end Strigi
