#!/usr/bin/env python3
"""Append the results of tools/mutate.py (JSON lines) to seeded/LOG.jsonl."""
import json, sys, re
remap = {'Knn':'C30/C31','Metric':'C30','Cov':'C32','genPrimes':'C33','markMultiples':'C33','trialDivision':'C33',
 'trialLoop':'C33','modularInverse':'C72','pyEgcd':'C72','nearlySquareFactors':'C34','pos':'C42','World':'C42','indexPut':'C42',
 'setRaw':'C43','combineStep':'C43','Master':'C44','viewGrid':'C44','torchSplit':'C45','queryCalls':'C45',
 'queryPatterns':'C45','pcaColumns':'C46','zeroMean':'C46'}
tight = {'Metric.dist':['C30_*'],'Metric.big':['C30_*'],'modularInverse':['C72_*'],'pyEgcd':['C72_*'],
 'indexPut':['C42_set_at_raises_iff'],'avgPool':['C95_preprocess'],'queryPatterns':['C45_mean_flag_ignored_fails'],
 'misoriToFz':['C11_misori','C11_disorientation'],'lengthNm':['C53_units'],'cellInit':['C53_accepted'],'transformCoordinates':['C54_frame_maps'],'fibEps':['C62_eps'],
 'lookup':['C38_transpose'],'ojaDraws':['C90_oja_schedule'],'factor':['C93_units'],'mlambda':['C92_codata','C92_refraction'],
 'mcBody':['C69_counters'],'mcDeDs':['C82_*'],'Batch.get':['C104_complex_correlation','C104_real_correlation'],'dsm2My':['C100_threefold_intended']}
src, first = sys.argv[1], int(sys.argv[2]) if len(sys.argv) > 2 else 0
out = open('/verif/seeded/LOG.jsonl', 'a')
for i, l in enumerate(open(src)):
    if i < first: continue
    d = json.loads(l); df = d['definition']; root = df.split('.')[0]
    claim = d['claim']
    if root in remap:
        claim = remap[root] + ': ' + re.sub(r'^\(?C\d\d[/C\d]*\)?\s*', '', claim)
    surv = d['rc'] == 0
    out.write(json.dumps({'definition': df, 'edit': d['edit'], 'claim': claim,
      'outcome': 'survived' if surv else 'killed', 'theorems_failed': d['theorems_failed'],
      'theorems_tightened': (tight.get(df, []) if surv else d.get('tightened', []))}) + '\n')
