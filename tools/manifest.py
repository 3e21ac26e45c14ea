#!/usr/bin/env python3
# generates /verif/MANIFEST.json
import json
claims=[]
def c(prop,status,thms,note):
    claims.append({"property":prop,"status":status,"theorems":["Strigi.Props."+t for t in thms.split()],"note":note})
c("C01","proved","C01_isStream C01_read_exact","all call sequences, all arguments")
c("C02","proved","C02_read_limits C02_max_below_min","plus the documented-but-violated case max<min as a witness")
c("C03","proved","C03_reset","for an empty stream and negative argument the code sets Ok (excluded by the hypothesis c≠[] or 0≤q)")
c("C04","proved","C04_skip C04_skip_narrow","narrowing from 2^31 on shown by a universally quantified counterexample family")
c("C05","proved","C05_base_skip C05_step_limit","any contract-respecting stream")
c("C06","proved","C06_isStream C06_read_all C06_read_exact","any producer that satisfies the fillBuffer documentation")
c("C07","proved","C07_read_limits","")
c("C08","proved","C08_rewind","")
c("C09","proved","C09_no_fault C09_makeSpace","int32 overflow of 2*size: see C142")
c("C10","proved","C10_declared_size C10_longer_is_error","a declared size of 0 is not checked by the code, hence 0<sz")
c("C11","proved","C11_size_at_eof C11_size_constant","")
c("C12","proved","C12_error_sticky","")
c("C13","proved","C13_skip","")
c("C14","proved","C14_window C14_position C14_rest","any contract-respecting parent; sizes below 2^31")
c("C15","proved","C15_no_short_success C15_short_parent","")
c("C16","proved","C16_reset_past_end","the violation is proved with a witness")
c("C17","proved","C17_nested","")
exec(open(__file__.replace('manifest.py','manifest_more.py')).read())
json.dump({"claims":claims},open("/verif/MANIFEST.json","w"),indent=1,ensure_ascii=False)
