import json,os
out=[];seen=set()
N1='No listed property spoke about this at the time (the claim given was the nearest one); theorems added, rerun with suffix r.'
TIGHT={"M12":["C23_partial_nan_control","C09_predict","C10_int_sentinel","C10_none_none","C13_*","C14_*","C20_predict_none","all theorems over RowLayout/CtrlIs"],"M179":["C129_settings_any"],"M230r":["C149_plain","C149_ext_plain"],"M287":["C128_text_is_kept","C128_old_lines_lost","C128_old_lines_replaced","C129_once","C129_twice"]}
DROP={"M230","M237","M238","M239"}
KFONLY='%s listed as broken by mistake: they are about KalmanFilter, the edit is in ExtendedKalmanFilter; they rightly still prove.'
MISTAKE=[(('M196',),('C69','C121'),KFONLY%'C69, C121'),(('M197',),('C41','C124'),KFONLY%'C41, C124'),(('M198',),('C121','C123'),KFONLY%'C121, C123')]
for f in ('/tmp/seed_out_old.jsonl','/tmp/seed_out.jsonl','/tmp/seed2_out.jsonl'):
    for l in open(f):
        r=json.loads(l); mu=r['mu']
        if r.get('error'): continue
        if r['id'] in seen or r['id'] in DROP: continue
        seen.add(r['id'])
        e={"id":r['id'],"definition":mu['definition'],"file":"lean/Verif/"+mu['file'],"edit":mu['edit'],"claim_broken":mu['breaks'],
           "theorems_failed":sorted(t.replace('KK.','') for p,ts in r['failed'].items() for t in ts),
           "survived":r['survived'],"theorems_tightened":TIGHT.get(r['id'],[])}
        if r['id']=='M12': e['note']="C23 still proved although false of the edited program, because its hypotheses were phrased with the model's own is_nan_all; hypotheses of this and the other theorems restated with Arr.Blank (entries are float NaN). Rerun as M12r."
        if r['id']=='M25': e['claim_broken']=[x for x in e['claim_broken'] if x!='C28']; e['survived']=[]; e['note']="C28 was listed as broken by mistake: it is about update, which the edit does not change; it rightly still proves."
        if r['id'] in ('M88','M89','M90','M91','M92'): e['note']=N1; e['theorems_tightened']=['C106_*']
        if r['id']=='M93': e['note']=N1; e['theorems_tightened']=['C107_*']
        if r['id']=='M98': e['note']=N1; e['theorems_tightened']=['C103_*','C105_*']
        if r['id']=='M287': e['note']="C128 still proved although false of the edited program, because it spoke of the model's own constant for the old lines; the specification now spells the lines out. Rerun as M287r."
        if r['id'] in ('M90r','M92r'): e['theorems_tightened']=['C106_untagged','C106_pre_after_bare_post']
        for ids,bad,why in MISTAKE:
            if r['id'] in ids:
                e['claim_broken']=[x for x in e['claim_broken'] if x not in bad]; e['survived']=[x for x in e['survived'] if x not in bad]; e['note']=why
        out.append(e)
open('/verif/seeded/LOG.jsonl','w').write(''.join(json.dumps(e)+'\n' for e in out))
print(len(out), [ (e['id'],e['survived']) for e in out if e['survived']])
