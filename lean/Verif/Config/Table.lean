import Verif.Config.NameModel

/-!
# The tables of option names

`parseRuleOption` (`src/config/parse.auto.c.inc` 870-11737) and `parseRuleOptionDeprecate`
(`src/config/parse.auto.c.inc` 11744-11991), restricted to the fields that `cfgParseOption` reads. The
columns of `o` are the name and `negate`, `reset`, `multi`, `group`, `deprecateMatch`; the columns of
`d` are the name, the position of the option in the first table and `indexed`, `unindexed`. The list was
generated from the source.
-/

namespace Verif.Config

/-- A row of `parseRuleOption`. -/
def o (name : Str) (negate reset multi group deprecateMatch : Bool) : OptRule :=
  ⟨name, negate, reset, multi, group, deprecateMatch⟩

/-- A row of `parseRuleOptionDeprecate`. -/
def d (name : Str) (id : Nat) (indexed unindexed : Bool) : DepRule := ⟨name, id, indexed, unindexed⟩

/-- `parseRuleOption` (`src/config/parse.auto.c.inc` 870-11737). -/
def realOpts : List OptRule := [
  -- 0: allow-root (line 874)
  o [97, 108, 108, 111, 119, 45, 114, 111, 111, 116] true true false false false,
  -- 1: annotation (line 967)
  o [97, 110, 110, 111, 116, 97, 116, 105, 111, 110] false true true false false,
  -- 2: archive-async (line 996)
  o [97, 114, 99, 104, 105, 118, 101, 45, 97, 115, 121, 110, 99] true true false false false,
  -- 3: archive-check (line 1041)
  o [97, 114, 99, 104, 105, 118, 101, 45, 99, 104, 101, 99, 107] true true false false false,
  -- 4: archive-copy (line 1094)
  o [97, 114, 99, 104, 105, 118, 101, 45, 99, 111, 112, 121] true true false false false,
  -- 5: archive-expire-before (line 1140)
  o [97, 114, 99, 104, 105, 118, 101, 45, 101, 120, 112, 105, 114, 101, 45, 98, 101, 102, 111, 114, 101] false false false false false,
  -- 6: archive-get-queue-max (line 1153)
  o [97, 114, 99, 104, 105, 118, 101, 45, 103, 101, 116, 45, 113, 117, 101, 117, 101, 45, 109, 97, 120] false true false false false,
  -- 7: archive-header-check (line 1189)
  o [97, 114, 99, 104, 105, 118, 101, 45, 104, 101, 97, 100, 101, 114, 45, 99, 104, 101, 99, 107] true true false false false,
  -- 8: archive-missing-retry (line 1220)
  o [97, 114, 99, 104, 105, 118, 101, 45, 109, 105, 115, 115, 105, 110, 103, 45, 114, 101, 116, 114, 121] true true false false false,
  -- 9: archive-mode (line 1246)
  o [97, 114, 99, 104, 105, 118, 101, 45, 109, 111, 100, 101] false true false false false,
  -- 10: archive-mode-check (line 1278)
  o [97, 114, 99, 104, 105, 118, 101, 45, 109, 111, 100, 101, 45, 99, 104, 101, 99, 107] true true false false false,
  -- 11: archive-push-batch-size (line 1318)
  o [97, 114, 99, 104, 105, 118, 101, 45, 112, 117, 115, 104, 45, 98, 97, 116, 99, 104, 45, 115, 105, 122, 101] false true false false false,
  -- 12: archive-push-queue-max (line 1354)
  o [97, 114, 99, 104, 105, 118, 101, 45, 112, 117, 115, 104, 45, 113, 117, 101, 117, 101, 45, 109, 97, 120] false true false false false,
  -- 13: archive-timeout (line 1385)
  o [97, 114, 99, 104, 105, 118, 101, 45, 116, 105, 109, 101, 111, 117, 116] false true false false false,
  -- 14: backup-standby (line 1419)
  o [98, 97, 99, 107, 117, 112, 45, 115, 116, 97, 110, 100, 98, 121] true true false false false,
  -- 15: beta (line 1455)
  o [98, 101, 116, 97] true true false false false,
  -- 16: buffer-size (line 1537)
  o [98, 117, 102, 102, 101, 114, 45, 115, 105, 122, 101] false true false false false,
  -- 17: checksum-page (line 1629)
  o [99, 104, 101, 99, 107, 115, 117, 109, 45, 112, 97, 103, 101] true true false false false,
  -- 18: cmd (line 1644)
  o [99, 109, 100] false true false false false,
  -- 19: cmd-ssh (line 1689)
  o [99, 109, 100, 45, 115, 115, 104] false true false false false,
  -- 20: compress (line 1744)
  o [99, 111, 109, 112, 114, 101, 115, 115] true true false false false,
  -- 21: compress-level (line 1771)
  o [99, 111, 109, 112, 114, 101, 115, 115, 45, 108, 101, 118, 101, 108] false true false false false,
  -- 22: compress-level-network (line 1841)
  o [99, 111, 109, 112, 114, 101, 115, 115, 45, 108, 101, 118, 101, 108, 45, 110, 101, 116, 119, 111, 114, 107] false true false false false,
  -- 23: compress-type (line 1902)
  o [99, 111, 109, 112, 114, 101, 115, 115, 45, 116, 121, 112, 101] false true false false false,
  -- 24: config (line 1945)
  o [99, 111, 110, 102, 105, 103] true false false false false,
  -- 25: config-include-path (line 2024)
  o [99, 111, 110, 102, 105, 103, 45, 105, 110, 99, 108, 117, 100, 101, 45, 112, 97, 116, 104] false false false false false,
  -- 26: config-path (line 2102)
  o [99, 111, 110, 102, 105, 103, 45, 112, 97, 116, 104] false false false false false,
  -- 27: db-exclude (line 2180)
  o [100, 98, 45, 101, 120, 99, 108, 117, 100, 101] false true true false false,
  -- 28: db-include (line 2195)
  o [100, 98, 45, 105, 110, 99, 108, 117, 100, 101] false true true false false,
  -- 29: db-timeout (line 2210)
  o [100, 98, 45, 116, 105, 109, 101, 111, 117, 116] false true false false false,
  -- 30: delta (line 2259)
  o [100, 101, 108, 116, 97] true true false false false,
  -- 31: detail-level (line 2286)
  o [100, 101, 116, 97, 105, 108, 45, 108, 101, 118, 101, 108] false false false false false,
  -- 32: dry-run (line 2317)
  o [100, 114, 121, 45, 114, 117, 110] false false false false false,
  -- 33: exclude (line 2341)
  o [101, 120, 99, 108, 117, 100, 101] false true true false false,
  -- 34: exec-id (line 2356)
  o [101, 120, 101, 99, 45, 105, 100] false false false false false,
  -- 35: expire-auto (line 2424)
  o [101, 120, 112, 105, 114, 101, 45, 97, 117, 116, 111] true true false false false,
  -- 36: filter (line 2450)
  o [102, 105, 108, 116, 101, 114] false false false false false,
  -- 37: force (line 2464)
  o [102, 111, 114, 99, 101] false false false false false,
  -- 38: help (line 2516)
  o [104, 101, 108, 112] false false false false false,
  -- 39: ignore-missing (line 2540)
  o [105, 103, 110, 111, 114, 101, 45, 109, 105, 115, 115, 105, 110, 103] false false false false false,
  -- 40: io-timeout (line 2564)
  o [105, 111, 45, 116, 105, 109, 101, 111, 117, 116] false true false false false,
  -- 41: job-retry (line 2647)
  o [106, 111, 98, 45, 114, 101, 116, 114, 121] false true false false false,
  -- 42: job-retry-interval (line 2718)
  o [106, 111, 98, 45, 114, 101, 116, 114, 121, 45, 105, 110, 116, 101, 114, 118, 97, 108] false true false false false,
  -- 43: link-all (line 2769)
  o [108, 105, 110, 107, 45, 97, 108, 108] true true false false false,
  -- 44: link-map (line 2795)
  o [108, 105, 110, 107, 45, 109, 97, 112] false true true false false,
  -- 45: lock (line 2810)
  o [108, 111, 99, 107] false false true false false,
  -- 46: lock-path (line 2831)
  o [108, 111, 99, 107, 45, 112, 97, 116, 104] false true false false false,
  -- 47: log-level-console (line 2895)
  o [108, 111, 103, 45, 108, 101, 118, 101, 108, 45, 99, 111, 110, 115, 111, 108, 101] false true false false false,
  -- 48: log-level-file (line 2987)
  o [108, 111, 103, 45, 108, 101, 118, 101, 108, 45, 102, 105, 108, 101] false true false false false,
  -- 49: log-level-stderr (line 3079)
  o [108, 111, 103, 45, 108, 101, 118, 101, 108, 45, 115, 116, 100, 101, 114, 114] false true false false false,
  -- 50: log-path (line 3170)
  o [108, 111, 103, 45, 112, 97, 116, 104] false true false false false,
  -- 51: log-subprocess (line 3249)
  o [108, 111, 103, 45, 115, 117, 98, 112, 114, 111, 99, 101, 115, 115] true true false false false,
  -- 52: log-timestamp (line 3325)
  o [108, 111, 103, 45, 116, 105, 109, 101, 115, 116, 97, 109, 112] true true false false false,
  -- 53: manifest-save-threshold (line 3405)
  o [109, 97, 110, 105, 102, 101, 115, 116, 45, 115, 97, 118, 101, 45, 116, 104, 114, 101, 115, 104, 111, 108, 100] false true false false false,
  -- 54: neutral-umask (line 3436)
  o [110, 101, 117, 116, 114, 97, 108, 45, 117, 109, 97, 115, 107] true true false false false,
  -- 55: oldest (line 3510)
  o [111, 108, 100, 101, 115, 116] false false false false false,
  -- 56: online (line 3552)
  o [111, 110, 108, 105, 110, 101] true false false false false,
  -- 57: output (line 3579)
  o [111, 117, 116, 112, 117, 116] false false false false false,
  -- 58: page-header-check (line 3652)
  o [112, 97, 103, 101, 45, 104, 101, 97, 100, 101, 114, 45, 99, 104, 101, 99, 107] true true false false false,
  -- 59: pg (line 3678)
  o [112, 103] false false false false false,
  -- 60: pg-database (line 3709)
  o [112, 103, 45, 100, 97, 116, 97, 98, 97, 115, 101] false true false true false,
  -- 61: pg-host (line 3758)
  o [112, 103, 45, 104, 111, 115, 116] false true false true false,
  -- 62: pg-host-ca-file (line 3814)
  o [112, 103, 45, 104, 111, 115, 116, 45, 99, 97, 45, 102, 105, 108, 101] false true false true false,
  -- 63: pg-host-ca-path (line 3851)
  o [112, 103, 45, 104, 111, 115, 116, 45, 99, 97, 45, 112, 97, 116, 104] false true false true false,
  -- 64: pg-host-cert-file (line 3888)
  o [112, 103, 45, 104, 111, 115, 116, 45, 99, 101, 114, 116, 45, 102, 105, 108, 101] false true false true false,
  -- 65: pg-host-cmd (line 3925)
  o [112, 103, 45, 104, 111, 115, 116, 45, 99, 109, 100] false true false true false,
  -- 66: pg-host-config (line 3968)
  o [112, 103, 45, 104, 111, 115, 116, 45, 99, 111, 110, 102, 105, 103] false true false true false,
  -- 67: pg-host-config-include-path (line 4009)
  o [112, 103, 45, 104, 111, 115, 116, 45, 99, 111, 110, 102, 105, 103, 45, 105, 110, 99, 108, 117, 100, 101, 45, 112, 97, 116, 104] false true false true false,
  -- 68: pg-host-config-path (line 4050)
  o [112, 103, 45, 104, 111, 115, 116, 45, 99, 111, 110, 102, 105, 103, 45, 112, 97, 116, 104] false true false true false,
  -- 69: pg-host-key-file (line 4091)
  o [112, 103, 45, 104, 111, 115, 116, 45, 107, 101, 121, 45, 102, 105, 108, 101] false true false true false,
  -- 70: pg-host-port (line 4128)
  o [112, 103, 45, 104, 111, 115, 116, 45, 112, 111, 114, 116] false true false true false,
  -- 71: pg-host-type (line 4181)
  o [112, 103, 45, 104, 111, 115, 116, 45, 116, 121, 112, 101] false true false true false,
  -- 72: pg-host-user (line 4228)
  o [112, 103, 45, 104, 111, 115, 116, 45, 117, 115, 101, 114] false true false true false,
  -- 73: pg-local (line 4270)
  o [112, 103, 45, 108, 111, 99, 97, 108] true true false true false,
  -- 74: pg-path (line 4320)
  o [112, 103, 45, 112, 97, 116, 104] false true false true false,
  -- 75: pg-port (line 4397)
  o [112, 103, 45, 112, 111, 114, 116] false true false true false,
  -- 76: pg-socket-path (line 4452)
  o [112, 103, 45, 115, 111, 99, 107, 101, 116, 45, 112, 97, 116, 104] false true false true false,
  -- 77: pg-user (line 4496)
  o [112, 103, 45, 117, 115, 101, 114] false true false true false,
  -- 78: pg-version-force (line 4540)
  o [112, 103, 45, 118, 101, 114, 115, 105, 111, 110, 45, 102, 111, 114, 99, 101] false true false false false,
  -- 79: priority (line 4592)
  o [112, 114, 105, 111, 114, 105, 116, 121] false true false false false,
  -- 80: process (line 4672)
  o [112, 114, 111, 99, 101, 115, 115] false false false false false,
  -- 81: process-max (line 4722)
  o [112, 114, 111, 99, 101, 115, 115, 45, 109, 97, 120] false true false false false,
  -- 82: protocol-timeout (line 4763)
  o [112, 114, 111, 116, 111, 99, 111, 108, 45, 116, 105, 109, 101, 111, 117, 116] false true false false false,
  -- 83: raw (line 4845)
  o [114, 97, 119] false false false false false,
  -- 84: recovery-option (line 4869)
  o [114, 101, 99, 111, 118, 101, 114, 121, 45, 111, 112, 116, 105, 111, 110] false true true false false,
  -- 85: recurse (line 4902)
  o [114, 101, 99, 117, 114, 115, 101] false false false false false,
  -- 86: reference (line 4927)
  o [114, 101, 102, 101, 114, 101, 110, 99, 101] false false false false false,
  -- 87: remote-type (line 4940)
  o [114, 101, 109, 111, 116, 101, 45, 116, 121, 112, 101] false false false false false,
  -- 88: repo (line 4990)
  o [114, 101, 112, 111] false false false false false,
  -- 89: repo-azure-account (line 5059)
  o [114, 101, 112, 111, 45, 97, 122, 117, 114, 101, 45, 97, 99, 99, 111, 117, 110, 116] false true false true false,
  -- 90: repo-azure-container (line 5137)
  o [114, 101, 112, 111, 45, 97, 122, 117, 114, 101, 45, 99, 111, 110, 116, 97, 105, 110, 101, 114] false true false true false,
  -- 91: repo-azure-endpoint (line 5214)
  o [114, 101, 112, 111, 45, 97, 122, 117, 114, 101, 45, 101, 110, 100, 112, 111, 105, 110, 116] false true false true false,
  -- 92: repo-azure-key (line 5297)
  o [114, 101, 112, 111, 45, 97, 122, 117, 114, 101, 45, 107, 101, 121] false true false true false,
  -- 93: repo-azure-key-type (line 5376)
  o [114, 101, 112, 111, 45, 97, 122, 117, 114, 101, 45, 107, 101, 121, 45, 116, 121, 112, 101] false true false true false,
  -- 94: repo-azure-uri-style (line 5466)
  o [114, 101, 112, 111, 45, 97, 122, 117, 114, 101, 45, 117, 114, 105, 45, 115, 116, 121, 108, 101] false true false true false,
  -- 95: repo-block (line 5555)
  o [114, 101, 112, 111, 45, 98, 108, 111, 99, 107] true true false true false,
  -- 96: repo-block-age-map (line 5589)
  o [114, 101, 112, 111, 45, 98, 108, 111, 99, 107, 45, 97, 103, 101, 45, 109, 97, 112] false true true true false,
  -- 97: repo-block-checksum-size-map (line 5618)
  o [114, 101, 112, 111, 45, 98, 108, 111, 99, 107, 45, 99, 104, 101, 99, 107, 115, 117, 109, 45, 115, 105, 122, 101, 45, 109, 97, 112] false true true true false,
  -- 98: repo-block-size-map (line 5647)
  o [114, 101, 112, 111, 45, 98, 108, 111, 99, 107, 45, 115, 105, 122, 101, 45, 109, 97, 112] false true true true false,
  -- 99: repo-block-size-super (line 5676)
  o [114, 101, 112, 111, 45, 98, 108, 111, 99, 107, 45, 115, 105, 122, 101, 45, 115, 117, 112, 101, 114] false true false true false,
  -- 100: repo-block-size-super-full (line 5715)
  o [114, 101, 112, 111, 45, 98, 108, 111, 99, 107, 45, 115, 105, 122, 101, 45, 115, 117, 112, 101, 114, 45, 102, 117, 108, 108] false true false true false,
  -- 101: repo-bundle (line 5754)
  o [114, 101, 112, 111, 45, 98, 117, 110, 100, 108, 101] true true false true false,
  -- 102: repo-bundle-limit (line 5781)
  o [114, 101, 112, 111, 45, 98, 117, 110, 100, 108, 101, 45, 108, 105, 109, 105, 116] false true false true false,
  -- 103: repo-bundle-size (line 5819)
  o [114, 101, 112, 111, 45, 98, 117, 110, 100, 108, 101, 45, 115, 105, 122, 101] false true false true false,
  -- 104: repo-cipher-pass (line 5857)
  o [114, 101, 112, 111, 45, 99, 105, 112, 104, 101, 114, 45, 112, 97, 115, 115] false true false true true,
  -- 105: repo-cipher-type (line 5936)
  o [114, 101, 112, 111, 45, 99, 105, 112, 104, 101, 114, 45, 116, 121, 112, 101] false true false true true,
  -- 106: repo-gcs-bucket (line 6019)
  o [114, 101, 112, 111, 45, 103, 99, 115, 45, 98, 117, 99, 107, 101, 116] false true false true false,
  -- 107: repo-gcs-endpoint (line 6095)
  o [114, 101, 112, 111, 45, 103, 99, 115, 45, 101, 110, 100, 112, 111, 105, 110, 116] false true false true false,
  -- 108: repo-gcs-key (line 6176)
  o [114, 101, 112, 111, 45, 103, 99, 115, 45, 107, 101, 121] false true false true false,
  -- 109: repo-gcs-key-type (line 6255)
  o [114, 101, 112, 111, 45, 103, 99, 115, 45, 107, 101, 121, 45, 116, 121, 112, 101] false true false true false,
  -- 110: repo-gcs-user-project (line 6345)
  o [114, 101, 112, 111, 45, 103, 99, 115, 45, 117, 115, 101, 114, 45, 112, 114, 111, 106, 101, 99, 116] false true false true false,
  -- 111: repo-hardlink (line 6410)
  o [114, 101, 112, 111, 45, 104, 97, 114, 100, 108, 105, 110, 107] true true false true false,
  -- 112: repo-host (line 6444)
  o [114, 101, 112, 111, 45, 104, 111, 115, 116] false true false true false,
  -- 113: repo-host-ca-file (line 6501)
  o [114, 101, 112, 111, 45, 104, 111, 115, 116, 45, 99, 97, 45, 102, 105, 108, 101] false true false true false,
  -- 114: repo-host-ca-path (line 6558)
  o [114, 101, 112, 111, 45, 104, 111, 115, 116, 45, 99, 97, 45, 112, 97, 116, 104] false true false true false,
  -- 115: repo-host-cert-file (line 6615)
  o [114, 101, 112, 111, 45, 104, 111, 115, 116, 45, 99, 101, 114, 116, 45, 102, 105, 108, 101] false true false true false,
  -- 116: repo-host-cmd (line 6672)
  o [114, 101, 112, 111, 45, 104, 111, 115, 116, 45, 99, 109, 100] false true false true false,
  -- 117: repo-host-config (line 6735)
  o [114, 101, 112, 111, 45, 104, 111, 115, 116, 45, 99, 111, 110, 102, 105, 103] false true false true false,
  -- 118: repo-host-config-include-path (line 6796)
  o [114, 101, 112, 111, 45, 104, 111, 115, 116, 45, 99, 111, 110, 102, 105, 103, 45, 105, 110, 99, 108, 117, 100, 101, 45, 112, 97, 116, 104] false true false true false,
  -- 119: repo-host-config-path (line 6857)
  o [114, 101, 112, 111, 45, 104, 111, 115, 116, 45, 99, 111, 110, 102, 105, 103, 45, 112, 97, 116, 104] false true false true false,
  -- 120: repo-host-key-file (line 6918)
  o [114, 101, 112, 111, 45, 104, 111, 115, 116, 45, 107, 101, 121, 45, 102, 105, 108, 101] false true false true false,
  -- 121: repo-host-port (line 6975)
  o [114, 101, 112, 111, 45, 104, 111, 115, 116, 45, 112, 111, 114, 116] false true false true false,
  -- 122: repo-host-type (line 7048)
  o [114, 101, 112, 111, 45, 104, 111, 115, 116, 45, 116, 121, 112, 101] false true false true false,
  -- 123: repo-host-user (line 7115)
  o [114, 101, 112, 111, 45, 104, 111, 115, 116, 45, 117, 115, 101, 114] false true false true false,
  -- 124: repo-local (line 7177)
  o [114, 101, 112, 111, 45, 108, 111, 99, 97, 108] true true false true false,
  -- 125: repo-path (line 7235)
  o [114, 101, 112, 111, 45, 112, 97, 116, 104] false true false true true,
  -- 126: repo-retention-archive (line 7312)
  o [114, 101, 112, 111, 45, 114, 101, 116, 101, 110, 116, 105, 111, 110, 45, 97, 114, 99, 104, 105, 118, 101] false true false true false,
  -- 127: repo-retention-archive-type (line 7340)
  o [114, 101, 112, 111, 45, 114, 101, 116, 101, 110, 116, 105, 111, 110, 45, 97, 114, 99, 104, 105, 118, 101, 45, 116, 121, 112, 101] false true false true false,
  -- 128: repo-retention-diff (line 7374)
  o [114, 101, 112, 111, 45, 114, 101, 116, 101, 110, 116, 105, 111, 110, 45, 100, 105, 102, 102] false true false true false,
  -- 129: repo-retention-full (line 7402)
  o [114, 101, 112, 111, 45, 114, 101, 116, 101, 110, 116, 105, 111, 110, 45, 102, 117, 108, 108] false true false true false,
  -- 130: repo-retention-full-type (line 7430)
  o [114, 101, 112, 111, 45, 114, 101, 116, 101, 110, 116, 105, 111, 110, 45, 102, 117, 108, 108, 45, 116, 121, 112, 101] false true false true false,
  -- 131: repo-retention-history (line 7464)
  o [114, 101, 112, 111, 45, 114, 101, 116, 101, 110, 116, 105, 111, 110, 45, 104, 105, 115, 116, 111, 114, 121] false true false true false,
  -- 132: repo-s3-bucket (line 7492)
  o [114, 101, 112, 111, 45, 115, 51, 45, 98, 117, 99, 107, 101, 116] false true false true true,
  -- 133: repo-s3-endpoint (line 7570)
  o [114, 101, 112, 111, 45, 115, 51, 45, 101, 110, 100, 112, 111, 105, 110, 116] false true false true true,
  -- 134: repo-s3-key (line 7648)
  o [114, 101, 112, 111, 45, 115, 51, 45, 107, 101, 121] false true false true true,
  -- 135: repo-s3-key-secret (line 7727)
  o [114, 101, 112, 111, 45, 115, 51, 45, 107, 101, 121, 45, 115, 101, 99, 114, 101, 116] false true false true true,
  -- 136: repo-s3-key-type (line 7806)
  o [114, 101, 112, 111, 45, 115, 51, 45, 107, 101, 121, 45, 116, 121, 112, 101] false true false true false,
  -- 137: repo-s3-kms-key-id (line 7898)
  o [114, 101, 112, 111, 45, 115, 51, 45, 107, 109, 115, 45, 107, 101, 121, 45, 105, 100] false true false true false,
  -- 138: repo-s3-process-cmd (line 7975)
  o [114, 101, 112, 111, 45, 115, 51, 45, 112, 114, 111, 99, 101, 115, 115, 45, 99, 109, 100] false true true true false,
  -- 139: repo-s3-region (line 8053)
  o [114, 101, 112, 111, 45, 115, 51, 45, 114, 101, 103, 105, 111, 110] false true false true true,
  -- 140: repo-s3-requester-pays (line 8131)
  o [114, 101, 112, 111, 45, 115, 51, 45, 114, 101, 113, 117, 101, 115, 116, 101, 114, 45, 112, 97, 121, 115] true true false true false,
  -- 141: repo-s3-role (line 8214)
  o [114, 101, 112, 111, 45, 115, 51, 45, 114, 111, 108, 101] false true false true false,
  -- 142: repo-s3-service (line 8291)
  o [114, 101, 112, 111, 45, 115, 51, 45, 115, 101, 114, 118, 105, 99, 101] false true false true false,
  -- 143: repo-s3-sse-customer-key (line 8373)
  o [114, 101, 112, 111, 45, 115, 51, 45, 115, 115, 101, 45, 99, 117, 115, 116, 111, 109, 101, 114, 45, 107, 101, 121] false true false true false,
  -- 144: repo-s3-sts-host (line 8451)
  o [114, 101, 112, 111, 45, 115, 51, 45, 115, 116, 115, 45, 104, 111, 115, 116] false true false true false,
  -- 145: repo-s3-token (line 8533)
  o [114, 101, 112, 111, 45, 115, 51, 45, 116, 111, 107, 101, 110] false true false true false,
  -- 146: repo-s3-uri-style (line 8611)
  o [114, 101, 112, 111, 45, 115, 51, 45, 117, 114, 105, 45, 115, 116, 121, 108, 101] false true false true false,
  -- 147: repo-sftp-host (line 8700)
  o [114, 101, 112, 111, 45, 115, 102, 116, 112, 45, 104, 111, 115, 116] false true false true false,
  -- 148: repo-sftp-host-fingerprint (line 8777)
  o [114, 101, 112, 111, 45, 115, 102, 116, 112, 45, 104, 111, 115, 116, 45, 102, 105, 110, 103, 101, 114, 112, 114, 105, 110, 116] false true false true false,
  -- 149: repo-sftp-host-key-check-type (line 8855)
  o [114, 101, 112, 111, 45, 115, 102, 116, 112, 45, 104, 111, 115, 116, 45, 107, 101, 121, 45, 99, 104, 101, 99, 107, 45, 116, 121, 112, 101] false true false true false,
  -- 150: repo-sftp-host-key-hash-type (line 8945)
  o [114, 101, 112, 111, 45, 115, 102, 116, 112, 45, 104, 111, 115, 116, 45, 107, 101, 121, 45, 104, 97, 115, 104, 45, 116, 121, 112, 101] false true false true false,
  -- 151: repo-sftp-host-port (line 9029)
  o [114, 101, 112, 111, 45, 115, 102, 116, 112, 45, 104, 111, 115, 116, 45, 112, 111, 114, 116] false true false true false,
  -- 152: repo-sftp-host-user (line 9117)
  o [114, 101, 112, 111, 45, 115, 102, 116, 112, 45, 104, 111, 115, 116, 45, 117, 115, 101, 114] false true false true false,
  -- 153: repo-sftp-known-host (line 9194)
  o [114, 101, 112, 111, 45, 115, 102, 116, 112, 45, 107, 110, 111, 119, 110, 45, 104, 111, 115, 116] false true true true false,
  -- 154: repo-sftp-private-key-file (line 9273)
  o [114, 101, 112, 111, 45, 115, 102, 116, 112, 45, 112, 114, 105, 118, 97, 116, 101, 45, 107, 101, 121, 45, 102, 105, 108, 101] false true false true false,
  -- 155: repo-sftp-private-key-passphrase (line 9350)
  o [114, 101, 112, 111, 45, 115, 102, 116, 112, 45, 112, 114, 105, 118, 97, 116, 101, 45, 107, 101, 121, 45, 112, 97, 115, 115, 112, 104, 114, 97, 115, 101] false true false true false,
  -- 156: repo-sftp-public-key-file (line 9428)
  o [114, 101, 112, 111, 45, 115, 102, 116, 112, 45, 112, 117, 98, 108, 105, 99, 45, 107, 101, 121, 45, 102, 105, 108, 101] false true false true false,
  -- 157: repo-storage-ca-file (line 9505)
  o [114, 101, 112, 111, 45, 115, 116, 111, 114, 97, 103, 101, 45, 99, 97, 45, 102, 105, 108, 101] false true false true false,
  -- 158: repo-storage-ca-path (line 9584)
  o [114, 101, 112, 111, 45, 115, 116, 111, 114, 97, 103, 101, 45, 99, 97, 45, 112, 97, 116, 104] false true false true false,
  -- 159: repo-storage-host (line 9663)
  o [114, 101, 112, 111, 45, 115, 116, 111, 114, 97, 103, 101, 45, 104, 111, 115, 116] false true false true false,
  -- 160: repo-storage-port (line 9741)
  o [114, 101, 112, 111, 45, 115, 116, 111, 114, 97, 103, 101, 45, 112, 111, 114, 116] false true false true false,
  -- 161: repo-storage-prefetch (line 9830)
  o [114, 101, 112, 111, 45, 115, 116, 111, 114, 97, 103, 101, 45, 112, 114, 101, 102, 101, 116, 99, 104] false true false true false,
  -- 162: repo-storage-read-over (line 9920)
  o [114, 101, 112, 111, 45, 115, 116, 111, 114, 97, 103, 101, 45, 114, 101, 97, 100, 45, 111, 118, 101, 114] false true false true false,
  -- 163: repo-storage-tag (line 10010)
  o [114, 101, 112, 111, 45, 115, 116, 111, 114, 97, 103, 101, 45, 116, 97, 103] false true true true false,
  -- 164: repo-storage-upload-chunk-size (line 10090)
  o [114, 101, 112, 111, 45, 115, 116, 111, 114, 97, 103, 101, 45, 117, 112, 108, 111, 97, 100, 45, 99, 104, 117, 110, 107, 45, 115, 105, 122, 101] false true false true false,
  -- 165: repo-storage-verify-tls (line 10198)
  o [114, 101, 112, 111, 45, 115, 116, 111, 114, 97, 103, 101, 45, 118, 101, 114, 105, 102, 121, 45, 116, 108, 115] true true false true false,
  -- 166: repo-symlink (line 10283)
  o [114, 101, 112, 111, 45, 115, 121, 109, 108, 105, 110, 107] true true false true false,
  -- 167: repo-target-time (line 10318)
  o [114, 101, 112, 111, 45, 116, 97, 114, 103, 101, 116, 45, 116, 105, 109, 101] false true false false false,
  -- 168: repo-type (line 10350)
  o [114, 101, 112, 111, 45, 116, 121, 112, 101] false true false true true,
  -- 169: report (line 10440)
  o [114, 101, 112, 111, 114, 116] false false false false false,
  -- 170: resume (line 10465)
  o [114, 101, 115, 117, 109, 101] true true false false false,
  -- 171: sck-block (line 10491)
  o [115, 99, 107, 45, 98, 108, 111, 99, 107] true true false false false,
  -- 172: sck-keep-alive (line 10570)
  o [115, 99, 107, 45, 107, 101, 101, 112, 45, 97, 108, 105, 118, 101] true true false false false,
  -- 173: set (line 10648)
  o [115, 101, 116] false false false false false,
  -- 174: sort (line 10708)
  o [115, 111, 114, 116] false false false false false,
  -- 175: spool-path (line 10741)
  o [115, 112, 111, 111, 108, 45, 112, 97, 116, 104] false true false false false,
  -- 176: stanza (line 10806)
  o [115, 116, 97, 110, 122, 97] false false false false false,
  -- 177: start-fast (line 10897)
  o [115, 116, 97, 114, 116, 45, 102, 97, 115, 116] true true false false false,
  -- 178: stop-auto (line 10923)
  o [115, 116, 111, 112, 45, 97, 117, 116, 111] true true false false false,
  -- 179: tablespace-map (line 10950)
  o [116, 97, 98, 108, 101, 115, 112, 97, 99, 101, 45, 109, 97, 112] false true true false false,
  -- 180: tablespace-map-all (line 10965)
  o [116, 97, 98, 108, 101, 115, 112, 97, 99, 101, 45, 109, 97, 112, 45, 97, 108, 108] false true false false false,
  -- 181: target (line 10979)
  o [116, 97, 114, 103, 101, 116] false false false false false,
  -- 182: target-action (line 11007)
  o [116, 97, 114, 103, 101, 116, 45, 97, 99, 116, 105, 111, 110] false false false false false,
  -- 183: target-exclusive (line 11048)
  o [116, 97, 114, 103, 101, 116, 45, 101, 120, 99, 108, 117, 115, 105, 118, 101] false false false false false,
  -- 184: target-timeline (line 11080)
  o [116, 97, 114, 103, 101, 116, 45, 116, 105, 109, 101, 108, 105, 110, 101] false false false false false,
  -- 185: tcp-keep-alive-count (line 11110)
  o [116, 99, 112, 45, 107, 101, 101, 112, 45, 97, 108, 105, 118, 101, 45, 99, 111, 117, 110, 116] false true false false false,
  -- 186: tcp-keep-alive-idle (line 11194)
  o [116, 99, 112, 45, 107, 101, 101, 112, 45, 97, 108, 105, 118, 101, 45, 105, 100, 108, 101] false true false false false,
  -- 187: tcp-keep-alive-interval (line 11278)
  o [116, 99, 112, 45, 107, 101, 101, 112, 45, 97, 108, 105, 118, 101, 45, 105, 110, 116, 101, 114, 118, 97, 108] false true false false false,
  -- 188: tls-cipher-12 (line 11362)
  o [116, 108, 115, 45, 99, 105, 112, 104, 101, 114, 45, 49, 50] false true false false false,
  -- 189: tls-cipher-13 (line 11428)
  o [116, 108, 115, 45, 99, 105, 112, 104, 101, 114, 45, 49, 51] false true false false false,
  -- 190: tls-server-address (line 11494)
  o [116, 108, 115, 45, 115, 101, 114, 118, 101, 114, 45, 97, 100, 100, 114, 101, 115, 115] false true false false false,
  -- 191: tls-server-auth (line 11520)
  o [116, 108, 115, 45, 115, 101, 114, 118, 101, 114, 45, 97, 117, 116, 104] false true true false false,
  -- 192: tls-server-ca-file (line 11535)
  o [116, 108, 115, 45, 115, 101, 114, 118, 101, 114, 45, 99, 97, 45, 102, 105, 108, 101] false true false false false,
  -- 193: tls-server-cert-file (line 11549)
  o [116, 108, 115, 45, 115, 101, 114, 118, 101, 114, 45, 99, 101, 114, 116, 45, 102, 105, 108, 101] false true false false false,
  -- 194: tls-server-key-file (line 11563)
  o [116, 108, 115, 45, 115, 101, 114, 118, 101, 114, 45, 107, 101, 121, 45, 102, 105, 108, 101] false true false false false,
  -- 195: tls-server-port (line 11577)
  o [116, 108, 115, 45, 115, 101, 114, 118, 101, 114, 45, 112, 111, 114, 116] false true false false false,
  -- 196: type (line 11609)
  o [116, 121, 112, 101] false false false false false,
  -- 197: verbose (line 11692)
  o [118, 101, 114, 98, 111, 115, 101] false false false false false,
  -- 198: version (line 11716)
  o [118, 101, 114, 115, 105, 111, 110] false false false false false]

/-- `parseRuleOptionDeprecate` (`src/config/parse.auto.c.inc` 11744-11991). -/
def realDeps : List DepRule := [
  -- archive-queue-max, option archive-push-queue-max
  d [97, 114, 99, 104, 105, 118, 101, 45, 113, 117, 101, 117, 101, 45, 109, 97, 120] 12 false true,
  -- backup-cmd, option repo-host-cmd
  d [98, 97, 99, 107, 117, 112, 45, 99, 109, 100] 116 false true,
  -- backup-config, option repo-host-config
  d [98, 97, 99, 107, 117, 112, 45, 99, 111, 110, 102, 105, 103] 117 false true,
  -- backup-host, option repo-host
  d [98, 97, 99, 107, 117, 112, 45, 104, 111, 115, 116] 112 false true,
  -- backup-ssh-port, option repo-host-port
  d [98, 97, 99, 107, 117, 112, 45, 115, 115, 104, 45, 112, 111, 114, 116] 121 false true,
  -- backup-user, option repo-host-user
  d [98, 97, 99, 107, 117, 112, 45, 117, 115, 101, 114] 123 false true,
  -- db-cmd, option pg-host-cmd
  d [100, 98, 45, 99, 109, 100] 65 true true,
  -- db-config, option pg-host-config
  d [100, 98, 45, 99, 111, 110, 102, 105, 103] 66 true true,
  -- db-host, option pg-host
  d [100, 98, 45, 104, 111, 115, 116] 61 true true,
  -- db-path, option pg-path
  d [100, 98, 45, 112, 97, 116, 104] 74 true true,
  -- db-port, option pg-port
  d [100, 98, 45, 112, 111, 114, 116] 75 true true,
  -- db-socket-path, option pg-socket-path
  d [100, 98, 45, 115, 111, 99, 107, 101, 116, 45, 112, 97, 116, 104] 76 true true,
  -- db-ssh-port, option pg-host-port
  d [100, 98, 45, 115, 115, 104, 45, 112, 111, 114, 116] 70 true true,
  -- db-user, option pg-host-user
  d [100, 98, 45, 117, 115, 101, 114] 72 true true,
  -- hardlink, option repo-hardlink
  d [104, 97, 114, 100, 108, 105, 110, 107] 111 false true,
  -- repo-azure-ca-file, option repo-storage-ca-file
  d [114, 101, 112, 111, 45, 97, 122, 117, 114, 101, 45, 99, 97, 45, 102, 105, 108, 101] 157 true false,
  -- repo-azure-ca-path, option repo-storage-ca-path
  d [114, 101, 112, 111, 45, 97, 122, 117, 114, 101, 45, 99, 97, 45, 112, 97, 116, 104] 158 true false,
  -- repo-azure-host, option repo-storage-host
  d [114, 101, 112, 111, 45, 97, 122, 117, 114, 101, 45, 104, 111, 115, 116] 159 true false,
  -- repo-azure-port, option repo-storage-port
  d [114, 101, 112, 111, 45, 97, 122, 117, 114, 101, 45, 112, 111, 114, 116] 160 true false,
  -- repo-azure-verify-tls, option repo-storage-verify-tls
  d [114, 101, 112, 111, 45, 97, 122, 117, 114, 101, 45, 118, 101, 114, 105, 102, 121, 45, 116, 108, 115] 165 true false,
  -- repo-cipher-pass, option repo-cipher-pass
  d [114, 101, 112, 111, 45, 99, 105, 112, 104, 101, 114, 45, 112, 97, 115, 115] 104 false true,
  -- repo-cipher-type, option repo-cipher-type
  d [114, 101, 112, 111, 45, 99, 105, 112, 104, 101, 114, 45, 116, 121, 112, 101] 105 false true,
  -- repo-path, option repo-path
  d [114, 101, 112, 111, 45, 112, 97, 116, 104] 125 false true,
  -- repo-s3-bucket, option repo-s3-bucket
  d [114, 101, 112, 111, 45, 115, 51, 45, 98, 117, 99, 107, 101, 116] 132 false true,
  -- repo-s3-ca-file, option repo-storage-ca-file
  d [114, 101, 112, 111, 45, 115, 51, 45, 99, 97, 45, 102, 105, 108, 101] 157 true true,
  -- repo-s3-ca-path, option repo-storage-ca-path
  d [114, 101, 112, 111, 45, 115, 51, 45, 99, 97, 45, 112, 97, 116, 104] 158 true true,
  -- repo-s3-endpoint, option repo-s3-endpoint
  d [114, 101, 112, 111, 45, 115, 51, 45, 101, 110, 100, 112, 111, 105, 110, 116] 133 false true,
  -- repo-s3-host, option repo-storage-host
  d [114, 101, 112, 111, 45, 115, 51, 45, 104, 111, 115, 116] 159 true true,
  -- repo-s3-key, option repo-s3-key
  d [114, 101, 112, 111, 45, 115, 51, 45, 107, 101, 121] 134 false true,
  -- repo-s3-key-secret, option repo-s3-key-secret
  d [114, 101, 112, 111, 45, 115, 51, 45, 107, 101, 121, 45, 115, 101, 99, 114, 101, 116] 135 false true,
  -- repo-s3-port, option repo-storage-port
  d [114, 101, 112, 111, 45, 115, 51, 45, 112, 111, 114, 116] 160 true false,
  -- repo-s3-region, option repo-s3-region
  d [114, 101, 112, 111, 45, 115, 51, 45, 114, 101, 103, 105, 111, 110] 139 false true,
  -- repo-s3-verify-ssl, option repo-storage-verify-tls
  d [114, 101, 112, 111, 45, 115, 51, 45, 118, 101, 114, 105, 102, 121, 45, 115, 115, 108] 165 true true,
  -- repo-s3-verify-tls, option repo-storage-verify-tls
  d [114, 101, 112, 111, 45, 115, 51, 45, 118, 101, 114, 105, 102, 121, 45, 116, 108, 115] 165 true false,
  -- repo-type, option repo-type
  d [114, 101, 112, 111, 45, 116, 121, 112, 101] 168 false true,
  -- retention-archive, option repo-retention-archive
  d [114, 101, 116, 101, 110, 116, 105, 111, 110, 45, 97, 114, 99, 104, 105, 118, 101] 126 false true,
  -- retention-archive-type, option repo-retention-archive-type
  d [114, 101, 116, 101, 110, 116, 105, 111, 110, 45, 97, 114, 99, 104, 105, 118, 101, 45, 116, 121, 112, 101] 127 false true,
  -- retention-diff, option repo-retention-diff
  d [114, 101, 116, 101, 110, 116, 105, 111, 110, 45, 100, 105, 102, 102] 128 false true,
  -- retention-full, option repo-retention-full
  d [114, 101, 116, 101, 110, 116, 105, 111, 110, 45, 102, 117, 108, 108] 129 false true]

/-- The tables of the program. -/
def realTable : Table := ⟨realOpts, realDeps⟩

end Verif.Config
